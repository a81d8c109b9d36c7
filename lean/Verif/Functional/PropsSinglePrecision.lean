import Verif.Functional.SinglePrecision
import Verif.Functional.PropsNormalCdf
import Mathlib.Analysis.SpecialFunctions.Log.Deriv
import Mathlib.Analysis.Complex.ExponentialBounds
import Mathlib.Analysis.Real.Pi.Bounds

/-!
C37 and C46 in double precision: `ndtr` rounds its argument to single precision, in which the lower tail of the
normal distribution is zero long before the point where `log_ndtr` changes to the asymptotic series.
-/

namespace Verif.Functional

open Real

/-- What is known of a single precision implementation `g` of a function `f`: its values are single precision
numbers, so integer multiples of the smallest positive one, and they are within one unit in the last place. -/
def Accurate (g f : ℝ → ℝ) : Prop :=
  ∀ x, (∃ k : ℤ, g x = k * 2 ^ (-149 : ℤ)) ∧ |g x - f x| ≤ 2 ^ (-23 : ℤ) * |f x| + 2 ^ (-149 : ℤ)

/-- Rounding is accurate, so the best implementation meets the condition. -/
theorem ulp32_ge (x : ℝ) : ∃ n : ℕ, ulp32 x = n * 2 ^ (-149 : ℤ) := by
  unfold ulp32
  split_ifs with hx
  · exact ⟨1, by simp⟩
  obtain ⟨n, hn⟩ : ∃ n : ℕ, max (Int.log 2 |x|) (-126) - 23 = n + (-149) :=
    ⟨(max (Int.log 2 |x|) (-126) + 126).toNat, by omega⟩
  refine ⟨2 ^ n, ?_⟩
  rw [hn, zpow_add₀ (by norm_num)]
  push_cast
  rw [zpow_natCast]

theorem ulp32_pos (x : ℝ) : 0 < ulp32 x := by unfold ulp32; split_ifs <;> positivity

theorem f32_near (x : ℝ) : |f32 x - x| ≤ ulp32 x / 2 := by
  have h := roundHalfEven_near (x / ulp32 x)
  have hp := ulp32_pos x
  have e : f32 x - x = ((roundHalfEven (x / ulp32 x) : ℝ) - x / ulp32 x) * ulp32 x := by
    unfold f32
    rw [sub_mul, div_mul_cancel₀ _ hp.ne']
  rw [e, abs_mul, abs_of_pos hp]
  nlinarith

theorem ulp32_le (x : ℝ) : ulp32 x ≤ 2 ^ (-23 : ℤ) * |x| + 2 ^ (-149 : ℤ) := by
  unfold ulp32
  by_cases hx : x = 0
  · subst hx
    simp
  rw [if_neg hx]
  have hx' : 0 < |x| := abs_pos.2 hx
  rcases le_total (Int.log 2 |x|) (-126) with h | h
  · rw [max_eq_right h]
    norm_num
  · rw [max_eq_left h, sub_eq_add_neg, zpow_add₀ (by norm_num), mul_comm]
    have := Int.zpow_log_le_self (b := 2) (by norm_num) hx'
    push_cast at this
    have h2 : (0 : ℝ) < 2 ^ (-23 : ℤ) := by positivity
    have h3 : (0 : ℝ) < 2 ^ (-149 : ℤ) := by positivity
    nlinarith

theorem accurate_round (f : ℝ → ℝ) : Accurate (fun x => f32 (f x)) f := by
  intro x
  constructor
  · obtain ⟨n, hn⟩ := ulp32_ge (f x)
    refine ⟨roundHalfEven (f x / ulp32 (f x)) * n, ?_⟩
    simp only [f32]
    rw [show (ulp32 (f x)) = n * 2 ^ (-149 : ℤ) from hn]
    push_cast
    ring
  · have h1 := f32_near (f x)
    have h2 := ulp32_le (f x)
    have h3 := ulp32_pos (f x)
    linarith

theorem round_small {x : ℝ} (h : |x| ≤ 1 / 2) : roundHalfEven x = 0 := by
  rcases lt_or_eq_of_le h with h | h
  · exact roundHalfEven_of_near x 0 (by simpa using h)
  · rcases abs_eq (show (0 : ℝ) ≤ 1 / 2 by norm_num) |>.1 h with rfl | rfl
    · have : ⌊(1 / 2 : ℝ)⌋ = 0 := by norm_num
      unfold roundHalfEven
      rw [this]
      norm_num
    · have : ⌊(-(1 / 2) : ℝ)⌋ = -1 := by
        rw [Int.floor_eq_iff]; norm_num
      unfold roundHalfEven
      rw [this]
      norm_num

/-- Half of the smallest positive single precision number rounds to zero. -/
theorem f32_tiny {x : ℝ} (h : |x| ≤ 2 ^ (-150 : ℤ)) : f32 x = 0 := by
  have hu : ulp32 x = 2 ^ (-149 : ℤ) := by
    unfold ulp32
    by_cases hx : x = 0
    · rw [if_pos hx]
    rw [if_neg hx]
    have hx' : 0 < |x| := abs_pos.2 hx
    have : Int.log 2 |x| ≤ -126 := by
      have h1 := Int.zpow_log_le_self (b := 2) (by norm_num) hx'
      push_cast at h1
      have h2 : (2 : ℝ) ^ (Int.log 2 |x|) ≤ 2 ^ (-150 : ℤ) := h1.trans h
      have := (zpow_le_zpow_iff_right₀ (show (1 : ℝ) < 2 by norm_num)).1 h2
      omega
    rw [max_eq_right this]
    norm_num
  unfold f32
  rw [hu, round_small]
  · simp
  · rw [abs_div, abs_of_pos (show (0 : ℝ) < 2 ^ (-149 : ℤ) by positivity), div_le_iff₀ (by positivity)]
    refine h.trans (le_of_eq ?_)
    norm_num

theorem f32_zero : f32 0 = 0 := f32_tiny (by simp)

theorem f32_rel {x : ℝ} (h : 1 / 2 ≤ |x|) : |f32 x - x| ≤ 2 ^ (-23 : ℤ) * |x| := by
  have h1 := f32_near x
  have h2 := ulp32_le x
  have h3 : (2 : ℝ) ^ (-149 : ℤ) ≤ 2 ^ (-23 : ℤ) * (1 / 2) := by norm_num
  have h4 : (2 : ℝ) ^ (-23 : ℤ) * (1 / 2) ≤ 2 ^ (-23 : ℤ) * |x| :=
    mul_le_mul_of_nonneg_left h (by positivity)
  have h5 : (0 : ℝ) < 2 ^ (-149 : ℤ) := by positivity
  generalize (2 : ℝ) ^ (-149 : ℤ) = u at *
  generalize (2 : ℝ) ^ (-23 : ℤ) * |x| = w at *
  generalize (2 : ℝ) ^ (-23 : ℤ) * (1 / 2) = w' at *
  linarith

theorem f32_rel' {x : ℝ} (h : 1 / 2 ≤ |x|) : |f32 x - x| ≤ 0.000001 * |x| := by
  refine (f32_rel h).trans (mul_le_mul_of_nonneg_right ?_ (abs_nonneg x))
  norm_num

theorem f32_sqrt_half : 0.7071 < f32 √0.5 ∧ f32 √0.5 < 0.7072 := by
  have h0 : (0.70710 : ℝ) < √0.5 := by
    apply Real.lt_sqrt_of_sq_lt; norm_num
  have h1 : √0.5 < 0.70711 := by
    rw [Real.sqrt_lt' (by norm_num)]; norm_num
  have h2 := f32_rel (x := √0.5) (by rw [abs_of_pos (by linarith)]; linarith)
  rw [abs_of_pos (show 0 < √0.5 by linarith), abs_le] at h2
  have h3 : (2 : ℝ) ^ (-23 : ℤ) * √0.5 ≤ 0.000001 := by
    have : (2 : ℝ) ^ (-23 : ℤ) ≤ 0.000001 := by norm_num
    nlinarith
  have h0' : (0.707106 : ℝ) < √0.5 := by
    apply Real.lt_sqrt_of_sq_lt; norm_num
  constructor <;> linarith [h2.1, h2.2]

theorem erfc_eq (x : ℝ) : erfc x = 2 * (1 - Phi (x * √2)) := by
  rw [Phi_erf]
  have : x * √2 * √(1 / 2) = x := by
    rw [mul_assoc, ← Real.sqrt_mul (by norm_num)]
    norm_num
  rw [this]
  unfold erfc
  ring

/-- The complementary error function is smaller than a quarter of the smallest single precision number from 10.5
on. -/
theorem erfc_tiny {x : ℝ} (hx : 10.5 ≤ x) : 0 ≤ erfc x ∧ erfc x ≤ 2 ^ (-151 : ℤ) := by
  rw [erfc_eq]
  have hs : (1.4142 : ℝ) < √2 := by apply Real.lt_sqrt_of_sq_lt; norm_num
  have hsq : √2 ^ 2 = (2 : ℝ) := Real.sq_sqrt (by norm_num)
  set t := x * √2 with ht
  have ht1 : 14.8 ≤ t := by rw [ht]; nlinarith
  have ht2 : 220.5 ≤ t ^ 2 := by rw [ht, mul_pow, hsq]; nlinarith
  have hlt := Phi_lt_one t
  refine ⟨by linarith, ?_⟩
  have h := tail_upper (show 0 < t by linarith)
  have hb : t⁻¹ - (t ^ 3)⁻¹ + 3 * (t ^ 5)⁻¹ ≤ 1 := by
    have h1 : t⁻¹ ≤ 1 / 2 := by
      rw [inv_le_comm₀ (by linarith) (by norm_num)]; norm_num; linarith
    have h3 : 0 ≤ (t ^ 3)⁻¹ := by positivity
    have h5 : (t ^ 5)⁻¹ ≤ 1 / 6 := by
      rw [inv_le_comm₀ (by positivity) (by norm_num)]
      have : (6 : ℝ) ≤ t ^ 5 := by
        calc (6 : ℝ) ≤ 6 ^ 5 := by norm_num
          _ ≤ t ^ 5 := pow_le_pow_left₀ (by norm_num) (by linarith) 5
      norm_num
      linarith
    linarith
  have hphi : phi t ≤ 2 ^ (-152 : ℤ) := by
    unfold phi
    have hpi : (√(2 * π))⁻¹ ≤ 1 := by
      apply inv_le_one_of_one_le₀
      rw [Real.one_le_sqrt]
      linarith [Real.pi_gt_three]
    have hexp : exp (-t ^ 2 / 2) ≤ 2 ^ (-152 : ℤ) := by
      rw [show (2 : ℝ) ^ (-152 : ℤ) = exp (Real.log 2 * ((-152 : ℤ) : ℝ)) by
        rw [← Real.rpow_intCast, Real.rpow_def_of_pos (by norm_num)]]
      apply Real.exp_le_exp.2
      have := Real.log_two_lt_d9
      push_cast
      linarith
    calc (√(2 * π))⁻¹ * exp (-t ^ 2 / 2) ≤ 1 * exp (-t ^ 2 / 2) :=
          mul_le_mul_of_nonneg_right hpi (exp_pos _).le
      _ ≤ _ := by rw [one_mul]; exact hexp
  have hp := phi_pos t
  have : 1 - Phi t ≤ 2 ^ (-152 : ℤ) := by nlinarith
  have e : (2 : ℝ) ^ (-151 : ℤ) = 2 * 2 ^ (-152 : ℤ) := by norm_num
  rw [e]
  linarith

theorem half_erfc_zero {erfc32 : ℝ → ℝ} (h : Accurate erfc32 erfc) {x : ℝ} (hx : 10.5 ≤ x) :
    f32 (0.5 * erfc32 x) = 0 := by
  obtain ⟨⟨k, hk⟩, herr⟩ := h x
  obtain ⟨h0, h1⟩ := erfc_tiny hx
  apply f32_tiny
  rw [abs_of_nonneg h0] at herr
  have hlt : |(k : ℝ)| < 2 := by
    have hb : |erfc32 x| < 2 * 2 ^ (-149 : ℤ) := by
      have e : (2 : ℝ) ^ (-149 : ℤ) = 4 * 2 ^ (-151 : ℤ) := by norm_num
      have hq : (2 : ℝ) ^ (-23 : ℤ) ≤ 1 := by norm_num
      have hp : (0 : ℝ) < 2 ^ (-151 : ℤ) := by positivity
      rw [abs_le] at herr
      rw [abs_lt]
      constructor <;> nlinarith [herr.1, herr.2]
    rw [hk, abs_mul, abs_of_pos (show (0 : ℝ) < 2 ^ (-149 : ℤ) by positivity)] at hb
    exact lt_of_mul_lt_mul_right hb (by positivity)
  have hk1 : |k| ≤ 1 := by
    have : |k| < 2 := by exact_mod_cast hlt
    omega
  have hk2 : |(k : ℝ)| ≤ 1 := by exact_mod_cast hk1
  rw [hk, abs_mul, abs_mul, abs_of_pos (show (0 : ℝ) < 2 ^ (-149 : ℤ) by positivity),
    abs_of_pos (show (0 : ℝ) < 0.5 by norm_num)]
  have e : (2 : ℝ) ^ (-150 : ℤ) = 0.5 * (1 * 2 ^ (-149 : ℤ)) := by norm_num
  rw [e]
  gcongr

theorem argument {x : ℝ} (h1 : -20 ≤ x) (h2 : x ≤ -15) :
    f32 (f32 x * f32 √0.5) ≤ -10.5 := by
  have ha : |x| = -x := abs_of_neg (by linarith)
  have hx := f32_rel' (x := x) (by rw [ha]; linarith)
  rw [ha, abs_le] at hx
  have hx1 : f32 x ≤ -14.999 := by nlinarith [hx.2]
  have hx2 : -20.001 ≤ f32 x := by nlinarith [hx.1]
  obtain ⟨s1, s2⟩ := f32_sqrt_half
  have hp1 : f32 x * f32 √0.5 ≤ -10.6 := by nlinarith
  have hp2 : -14.2 ≤ f32 x * f32 √0.5 := by nlinarith
  set z := f32 x * f32 √0.5
  have hz : |z| = -z := abs_of_neg (by linarith)
  have hr := f32_rel' (x := z) (by rw [hz]; linarith)
  rw [hz, abs_le] at hr
  nlinarith [hr.2]

/-- Fifteen to twenty standard deviations below the mean the single precision result is zero. -/
theorem ndtrSingle_zero {erf32 erfc32 : ℝ → ℝ} (h : Accurate erfc32 erfc) {x : ℝ} (h1 : -20 ≤ x) (h2 : x ≤ -15) :
    ndtrSingle erf32 erfc32 x = 0 := by
  have ha := argument h1 h2
  unfold ndtrSingle
  set z := f32 (f32 x * f32 √0.5)
  have hz : |z| = -z := abs_of_neg (by linarith)
  simp only [hz]
  rw [if_neg (by linarith [f32_sqrt_half.2]), if_neg (by linarith)]
  exact half_erfc_zero h (by linarith)

/-- **C37 is violated in double precision.** Whatever accurate single precision error functions torch has: for a
double precision argument from fifteen to twenty standard deviations below the mean `ndtr` returns zero and
`log_ndtr` minus infinity, though the probability is positive and its logarithm (which is what the logarithm of
`Normal.cdf` gives) is above -204. -/
theorem C37_violated_double {erf32 erfc32 : ℝ → ℝ} (h : Accurate erfc32 erfc) (x : ℝ) (h1 : -20 ≤ x)
    (h2 : x ≤ -15) :
    ndtrSingle erf32 erfc32 x = 0 ∧ logNdtrDouble erf32 erfc32 x = .negInf ∧
      0 < (Dist.normal 0 1).cdf x ∧ -204 < log ((Dist.normal 0 1).cdf x) := by
  have hz := ndtrSingle_zero (erf32 := erf32) h h1 h2
  have hc : (Dist.normal 0 1).cdf x = Phi x := by rw [normal_cdf]; simp
  refine ⟨hz, ?_, ?_, ?_⟩
  · unfold logNdtrDouble
    rw [if_neg (by linarith), if_pos h1, hz]
    unfold logSingle
    simp
  · rw [hc]; exact Phi_pos x
  · rw [hc]
    have hmono : Phi (-20) ≤ Phi x := Phi_mono h1
    have hl := tail_lower (t := 20) (by norm_num)
    rw [show (1 : ℝ) - Phi 20 = Phi (-20) by rw [Phi_neg]] at hl
    have hphi : exp (-201) ≤ phi 20 := by
      unfold phi
      have hpi : exp (-1) ≤ (√(2 * π))⁻¹ := by
        rw [exp_neg]
        apply inv_anti₀ (by positivity)
        rw [Real.sqrt_le_left (exp_pos 1).le]
        have := Real.exp_one_gt_d9
        have := Real.pi_lt_d2
        nlinarith
      have e : exp (-201) = exp (-1) * exp (-200) := by rw [← exp_add]; norm_num
      rw [e, show (-(20 : ℝ) ^ 2 / 2) = -200 by norm_num]
      exact mul_le_mul_of_nonneg_right hpi (exp_pos _).le
    have hseries : (0.0498 : ℝ) ≤ (20 : ℝ)⁻¹ - (20 ^ 3)⁻¹ + 3 * (20 ^ 5)⁻¹ - 15 * (20 ^ 7)⁻¹ := by norm_num
    have he3 : exp (-3) < 0.0498 := by
      rw [exp_neg]
      have h1 : (2.7182818283 : ℝ) < exp 1 := Real.exp_one_gt_d9
      have h3 : exp 3 = exp 1 ^ 3 := by rw [← exp_nat_mul]; norm_num
      rw [h3, inv_lt_comm₀ (by positivity) (by norm_num)]
      calc (0.0498 : ℝ)⁻¹ < 2.7182818283 ^ 3 := by norm_num
        _ ≤ exp 1 ^ 3 := pow_le_pow_left₀ (by norm_num) h1.le 3
    have hfin : exp (-204) < Phi x := by
      have e : exp (-204) = exp (-201) * exp (-3) := by rw [← exp_add]; norm_num
      rw [e]
      calc exp (-201) * exp (-3) ≤ phi 20 * 0.0498 := mul_le_mul hphi he3.le (exp_pos _).le (phi_pos _).le
        _ ≤ phi 20 * ((20 : ℝ)⁻¹ - (20 ^ 3)⁻¹ + 3 * (20 ^ 5)⁻¹ - 15 * (20 ^ 7)⁻¹) :=
            mul_le_mul_of_nonneg_left hseries (phi_pos _).le
        _ < Phi (-20) := hl
        _ ≤ Phi x := hmono
    rwa [Real.lt_log_iff_exp_lt (Phi_pos x)]

/-- The hypothesis is met: rounding the exact error function to the nearest number is accurate. -/
example : logNdtrDouble (fun x => f32 (erf x)) (fun x => f32 (erfc x)) (-16) = .negInf :=
  (C37_violated_double (accurate_round erfc) (-16) (by norm_num) (by norm_num)).2.1

/-- **C46 is violated in double precision.** For a normal distribution and a double precision value that is, with
the half units around it, fifteen to twenty standard deviations away from the mean on either side, `log_prob` is
not a number, though the probability is positive. -/
theorem C46_violated_double {erf32 erfc32 : ℝ → ℝ} (h : Accurate erfc32 erfc) (loc scale v : ℝ) (hs : 0 < scale)
    (hv : (loc - 20 * scale ≤ v - 1 / 2 ∧ v + 1 / 2 ≤ loc - 15 * scale) ∨
      (loc + 15 * scale ≤ v - 1 / 2 ∧ v + 1 / 2 ≤ loc + 20 * scale)) :
    logProbDouble erf32 erfc32 loc scale v = .nan ∧ 0 < Layers.prob (.normal loc scale) v := by
  have low : ∀ x, -20 ≤ x → x ≤ -15 → logNdtrDouble erf32 erfc32 x = .negInf := fun x a b =>
    (C37_violated_double h x a b).2.1
  have high : ∀ x, -20 ≤ x → x ≤ -15 → logNdtrDouble erf32 erfc32 (-x) = .val 0 := by
    intro x a b
    unfold logNdtrDouble
    rw [if_pos (by linarith), neg_neg, ndtrSingle_zero h a b]
    unfold log1pSingle
    simp [f32_zero]
  have hh : (0.5 : ℝ) = 1 / 2 := by norm_num
  constructor
  · unfold logProbDouble
    simp only [hh]
    rcases hv with ⟨a, b⟩ | ⟨a, b⟩
    · have p1 : -20 ≤ (v + 1 / 2 - loc) / scale := by rw [le_div_iff₀ hs]; linarith
      have p2 : (v + 1 / 2 - loc) / scale ≤ -15 := by rw [div_le_iff₀ hs]; linarith
      have m1 : -20 ≤ (v - 1 / 2 - loc) / scale := by rw [le_div_iff₀ hs]; linarith
      have m2 : (v - 1 / 2 - loc) / scale ≤ -15 := by rw [div_le_iff₀ hs]; linarith
      rw [low _ p1 p2, low _ m1 m2, high _ p1 p2, high _ m1 m2]
      simp [logProbFrom, Layers.F.Lt, Layers.F.sub, Layers.F.log1mexp, Layers.F.add]
    · have p1 : -20 ≤ -((v + 1 / 2 - loc) / scale) := by
        have : (v + 1 / 2 - loc) / scale ≤ 20 := by rw [div_le_iff₀ hs]; linarith
        linarith
      have p2 : -((v + 1 / 2 - loc) / scale) ≤ -15 := by
        have : 15 ≤ (v + 1 / 2 - loc) / scale := by rw [le_div_iff₀ hs]; linarith
        linarith
      have m1 : -20 ≤ -((v - 1 / 2 - loc) / scale) := by
        have : (v - 1 / 2 - loc) / scale ≤ 20 := by rw [div_le_iff₀ hs]; linarith
        linarith
      have m2 : -((v - 1 / 2 - loc) / scale) ≤ -15 := by
        have : 15 ≤ (v - 1 / 2 - loc) / scale := by rw [le_div_iff₀ hs]; linarith
        linarith
      have q1 := high _ p1 p2
      have q2 := high _ m1 m2
      rw [neg_neg] at q1 q2
      rw [low _ p1 p2, low _ m1 m2, q1, q2]
      simp [logProbFrom, Layers.F.Lt, Layers.F.sub, Layers.F.log1mexp, Layers.F.add]
  · have e : Layers.prob (.normal loc scale) v =
        (Dist.normal loc scale).cdf (v + 1 / 2) - (Dist.normal loc scale).cdf (v - 1 / 2) := by
      unfold Layers.prob
      simp only [C37_survival]
      norm_num
    rw [e, normal_cdf, normal_cdf, sub_pos]
    apply Phi_strictMono
    gcongr
    linarith

/-- Non-vacuity: the value 16 under the standard normal distribution with noise. -/
example : logProbDouble (fun x => f32 (erf x)) (fun x => f32 (erfc x)) 0 1 16 = .nan :=
  (C46_violated_double (accurate_round erfc) 0 1 16 one_pos (Or.inr (by norm_num))).1

end Verif.Functional
