import Verif.Functional.PropsSoftRoundGrad
import Mathlib.Analysis.SpecialFunctions.Trigonometric.DerivHyp
import Mathlib.Analysis.SpecialFunctions.Trigonometric.Series
import Mathlib.Analysis.Calculus.Deriv.MeanValue
import Mathlib.Tactic.Ring
import Mathlib.Tactic.FieldSimp

/-!
C36: what the temperature does.  A larger `alpha` gives a closer approximation of rounding, a small one the identity.
-/

namespace Verif.Functional.SoftRoundAlpha

open Real Set Filter Topology Verif.Functional Verif.Functional.Gradients

theorem sinh_lt_mul {k c : ℝ} (hk : 0 < k) (hk1 : k < 1) (hc : 0 < c) : sinh (k * c) < k * sinh c := by
  have hm : StrictMonoOn (fun c => k * sinh c - sinh (k * c)) (Ici 0) := by
    refine strictMonoOn_of_deriv_pos (convex_Ici 0) (by fun_prop) fun t ht => ?_
    rw [interior_Ici, mem_Ioi] at ht
    have h1 : HasDerivAt (fun c => k * sinh c - sinh (k * c)) (k * cosh t - cosh (k * t) * (k * 1)) t :=
      ((hasDerivAt_sinh t).const_mul k).sub ((hasDerivAt_sinh (k * t)).comp t ((hasDerivAt_id t).const_mul k))
    rw [h1.deriv]
    have : cosh (k * t) < cosh t := by
      rw [cosh_lt_cosh, abs_of_pos (mul_pos hk ht), abs_of_pos ht]
      nlinarith
    nlinarith
  have := hm (mem_Ici.2 (le_refl 0)) (mem_Ici.2 hc.le) hc
  simp only [sinh_zero, mul_zero, sub_zero] at this
  linarith

/-- The curve rises with the temperature. -/
theorem curve_alpha {d : ℝ} (hd : 0 < d) (hd1 : d < 1 / 2) : StrictMonoOn (fun a => curve a d) (Ioi 0) := by
  have hder : ∀ a, 0 < a → HasDerivAt (fun a => curve a d)
      (((1 - tanh (a * d) ^ 2) * (1 * d) * (tanh (a / 2) * 2) - tanh (a * d) * ((1 - tanh (a / 2) ^ 2) * (1 / 2) * 2)) /
        (tanh (a / 2) * 2) ^ 2) a := by
    intro a ha
    have h1 : HasDerivAt (fun a => tanh (a * d)) ((1 - tanh (a * d) ^ 2) * (1 * d)) a :=
      HasDerivAt.comp a (h₂ := tanh) (h := fun a => a * d) (hasDerivAt_tanh (a * d)) ((hasDerivAt_id a).mul_const d)
    have h2 : HasDerivAt (fun a => tanh (a / 2) * 2) ((1 - tanh (a / 2) ^ 2) * (1 / 2) * 2) a :=
      (HasDerivAt.comp a (h₂ := tanh) (h := fun a => a / 2) (hasDerivAt_tanh (a / 2)) ((hasDerivAt_id a).div_const 2)).mul_const 2
    exact h1.div h2 (mul_pos (tanh_half_pos ha) two_pos).ne'
  refine strictMonoOn_of_deriv_pos (convex_Ioi 0) (fun a ha => (hder a ha).continuousAt.continuousWithinAt)
    fun a ha => ?_
  rw [interior_Ioi, mem_Ioi] at ha
  rw [(hder a ha).deriv]
  refine div_pos ?_ (pow_pos (mul_pos (tanh_half_pos ha) two_pos) 2)
  have key := sinh_lt_mul (k := 2 * d) (c := a) (by linarith) (by linarith) ha
  rw [show 2 * d * a = 2 * (a * d) by ring, sinh_two_mul] at key
  have ea : sinh a = 2 * sinh (a / 2) * cosh (a / 2) := by
    conv_lhs => rw [show a = 2 * (a / 2) by ring]
    exact sinh_two_mul _
  rw [ea] at key
  rw [tanh_eq_sinh_div_cosh, tanh_eq_sinh_div_cosh]
  have c1 := cosh_pos (a * d)
  have c2 := cosh_pos (a / 2)
  have q1 := cosh_sq' (a * d)
  have q2 := cosh_sq' (a / 2)
  have e1 : 1 - (sinh (a * d) / cosh (a * d)) ^ 2 = 1 / cosh (a * d) ^ 2 := by
    rw [div_pow, eq_div_iff (pow_pos c1 2).ne', sub_mul, div_mul_cancel₀ _ (pow_pos c1 2).ne', q1]
    ring
  have e2 : 1 - (sinh (a / 2) / cosh (a / 2)) ^ 2 = 1 / cosh (a / 2) ^ 2 := by
    rw [div_pow, eq_div_iff (pow_pos c2 2).ne', sub_mul, div_mul_cancel₀ _ (pow_pos c2 2).ne', q2]
    ring
  rw [e1, e2]
  have : 1 / cosh (a * d) ^ 2 * (1 * d) * (sinh (a / 2) / cosh (a / 2) * 2) -
      sinh (a * d) / cosh (a * d) * (1 / cosh (a / 2) ^ 2 * (1 / 2) * 2) =
      (2 * d * (sinh (a / 2) * cosh (a / 2)) - sinh (a * d) * cosh (a * d)) / (cosh (a * d) ^ 2 * cosh (a / 2) ^ 2) := by
    field_simp
  rw [this]
  refine div_pos ?_ (by positivity)
  nlinarith

theorem curve_neg (a d : ℝ) : curve a (-d) = -curve a d := by
  unfold curve
  rw [mul_neg, tanh_neg, neg_div]

/-- The curve is not below the identity. -/
theorem le_curve {a d : ℝ} (ha : 0 < a) (hd : 0 ≤ d) (hd1 : d ≤ 1 / 2) : d ≤ curve a d := by
  have hm : MonotoneOn (fun b => tanh (2 * d * b) - 2 * d * tanh b) (Ici 0) := by
    have hder : ∀ b, HasDerivAt (fun b => tanh (2 * d * b) - 2 * d * tanh b)
        ((1 - tanh (2 * d * b) ^ 2) * (2 * d * 1) - 2 * d * (1 - tanh b ^ 2)) b := fun b =>
      ((hasDerivAt_tanh (2 * d * b)).comp b ((hasDerivAt_id b).const_mul (2 * d))).sub ((hasDerivAt_tanh b).const_mul (2 * d))
    refine monotoneOn_of_deriv_nonneg (convex_Ici 0) (fun b _ => (hder b).continuousAt.continuousWithinAt)
      (fun b _ => (hder b).differentiableAt.differentiableWithinAt) fun b hb => ?_
    rw [interior_Ici, mem_Ioi] at hb
    rw [(hder b).deriv]
    have h1 : tanh (2 * d * b) ≤ tanh b := tanh_strictMono.monotone (by nlinarith)
    have h0 : 0 ≤ tanh (2 * d * b) := by
      have := tanh_strictMono.monotone (show (0 : ℝ) ≤ 2 * d * b by positivity)
      rwa [tanh_zero] at this
    have h2 : tanh (2 * d * b) ^ 2 ≤ tanh b ^ 2 := by gcongr
    nlinarith
  have := hm (mem_Ici.2 (le_refl 0)) (mem_Ici.2 (show (0 : ℝ) ≤ a / 2 by linarith)) (by linarith)
  simp only [tanh_zero, mul_zero, sub_zero] at this
  rw [show 2 * d * (a / 2) = a * d by ring] at this
  unfold curve
  rw [le_div_iff₀ (mul_pos (tanh_half_pos ha) two_pos)]
  linarith

/-- The curve is not far above the identity. -/
theorem curve_le {a d : ℝ} (ha : 0 < a) (hd : 0 ≤ d) : curve a d ≤ d * exp (a ^ 2 / 8) := by
  have h1 : tanh (a * d) ≤ a * d := by
    rcases hd.lt_or_eq with h | h
    · rw [tanh_eq_sinh_div_cosh, div_le_iff₀ (cosh_pos _)]
      have hm : MonotoneOn (fun t => t * cosh t - sinh t) (Ici 0) := by
        have hder : ∀ t, HasDerivAt (fun t => t * cosh t - sinh t) (1 * cosh t + t * sinh t - cosh t) t := fun t =>
          ((hasDerivAt_id t).mul (hasDerivAt_cosh t)).sub (hasDerivAt_sinh t)
        refine monotoneOn_of_deriv_nonneg (convex_Ici 0) (fun b _ => (hder b).continuousAt.continuousWithinAt)
          (fun b _ => (hder b).differentiableAt.differentiableWithinAt) fun b hb => ?_
        rw [interior_Ici, mem_Ioi] at hb
        rw [(hder b).deriv]
        have := mul_nonneg hb.le (sinh_nonneg_iff.2 hb.le)
        linarith
      have := hm (mem_Ici.2 (le_refl 0)) (mem_Ici.2 (show (0 : ℝ) ≤ a * d by positivity)) (by positivity)
      simp only [sinh_zero, zero_mul, sub_zero] at this
      linarith
    · rw [← h]; simp
  have h2 : a / 2 ≤ tanh (a / 2) * exp (a ^ 2 / 8) := by
    have hs : a / 2 ≤ sinh (a / 2) := self_le_sinh_iff.2 (by linarith)
    have hc : cosh (a / 2) ≤ exp (a ^ 2 / 8) := by
      have := cosh_le_exp_half_sq (a / 2)
      rwa [show (a / 2) ^ 2 / 2 = a ^ 2 / 8 by ring] at this
    calc a / 2 ≤ sinh (a / 2) := hs
      _ = tanh (a / 2) * cosh (a / 2) := by rw [tanh_eq_sinh_div_cosh, div_mul_cancel₀ _ (cosh_pos _).ne']
      _ ≤ _ := mul_le_mul_of_nonneg_left hc (tanh_half_pos ha).le
  unfold curve
  rw [div_le_iff₀ (mul_pos (tanh_half_pos ha) two_pos)]
  nlinarith

/-- How fast the curve reaches one half. -/
theorem half_sub_curve {a d : ℝ} (ha : 0 < a) (hd : 0 ≤ d) : 1 / 2 - curve a d ≤ exp (-2 * a * d) := by
  have h0 : 0 ≤ tanh (a * d) := by
    have := tanh_strictMono.monotone (show (0 : ℝ) ≤ a * d by positivity)
    rwa [tanh_zero] at this
  have h1 : tanh (a * d) / 2 ≤ curve a d := by
    unfold curve
    have := tanh_half_pos ha
    refine div_le_div_of_nonneg_left h0 (by positivity) ?_
    linarith [tanh_lt_one (a / 2)]
  have h2 : 1 - tanh (a * d) ≤ 2 * exp (-2 * a * d) := by
    rw [tanh_eq_sinh_div_cosh, one_sub_div (cosh_pos _).ne', cosh_sub_sinh, div_le_iff₀ (cosh_pos _), cosh_eq]
    have e : exp (-(a * d)) = exp (-2 * a * d) * exp (a * d) := by rw [← exp_add]; ring_nf
    have := exp_pos (-(a * d))
    have := exp_pos (-2 * a * d)
    nlinarith [mul_pos this (exp_pos (-(a * d)))]
  linarith

/-! ### C36 -/

/-- The error of the approximation, by the distance `d` from the next half integer. -/
theorem error_eq {x : ℝ} {n : ℤ} (h : |x - n| < 1 / 2) (a eps : ℝ) (he : 0 < eps) (ha : eps ≤ a) :
    |softRound x a eps - n| = 1 / 2 - curve a (1 / 2 - |x - n|) := by
  have hpos := he.trans_le ha
  obtain ⟨h1, h2⟩ := abs_lt.1 h
  rw [softRound_eq ha]
  rcases lt_or_ge x n with hx | hx
  · have hf : ⌊x⌋ = n - 1 := Int.floor_eq_iff.2 ⟨by push_cast; linarith, by push_cast; linarith⟩
    rw [hf, abs_of_neg (sub_neg.2 hx)]
    push_cast
    rw [show x - ((n : ℝ) - 1 + 1 / 2) = 1 / 2 - -(x - n) by ring]
    have : curve a (1 / 2 - -(x - n)) ≤ 1 / 2 := by
      conv_rhs => rw [← curve_half hpos]
      exact (curve_strictMono hpos).monotone (by linarith)
    rw [abs_of_nonpos (by linarith)]
    ring
  · have hf : ⌊x⌋ = n := Int.floor_eq_iff.2 ⟨hx, by linarith⟩
    rw [hf, abs_of_nonneg (sub_nonneg.2 hx)]
    have e : x - ((n : ℝ) + 1 / 2) = -(1 / 2 - (x - n)) := by ring
    rw [e, curve_neg]
    have : curve a (1 / 2 - (x - n)) ≤ 1 / 2 := by
      conv_rhs => rw [← curve_half hpos]
      exact (curve_strictMono hpos).monotone (by linarith)
    rw [abs_of_nonneg (by linarith)]
    ring

/-- **C36, larger temperatures.** The larger `alpha`, the closer the result is to the nearest integer; strictly closer, unless
the argument is an integer or both temperatures are below the threshold.  It is never further away than the argument. -/
theorem C36_alpha (x : ℝ) (n : ℤ) (h : |x - n| < 1 / 2) {eps : ℝ} (he : 0 < eps) :
    (∀ a b : ℝ, a ≤ b → |softRound x b eps - n| ≤ |softRound x a eps - n|) ∧
      (∀ a b : ℝ, eps ≤ a → a < b → x ≠ n → |softRound x b eps - n| < |softRound x a eps - n|) ∧
      ∀ a : ℝ, |softRound x a eps - n| ≤ |x - n| := by
  have hle : ∀ a : ℝ, |softRound x a eps - n| ≤ |x - n| := by
    intro a
    rcases lt_or_ge a eps with ha | ha
    · rw [softRound_id ha]
    · rw [error_eq h a eps he ha]
      have := le_curve (he.trans_le ha) (show 0 ≤ 1 / 2 - |x - n| by linarith) (by linarith [abs_nonneg (x - n)])
      linarith
  have hlt : ∀ a b : ℝ, eps ≤ a → a < b → x ≠ n → |softRound x b eps - n| < |softRound x a eps - n| := by
    intro a b ha hab hx
    rw [error_eq h a eps he ha, error_eq h b eps he (ha.trans hab.le)]
    have hd : 0 < |x - n| := abs_pos.2 (sub_ne_zero.2 hx)
    have := curve_alpha (d := 1 / 2 - |x - n|) (by linarith) (by linarith) (mem_Ioi.2 (he.trans_le ha))
      (mem_Ioi.2 (he.trans_le (ha.trans hab.le))) hab
    dsimp only at this
    linarith
  refine ⟨fun a b hab => ?_, hlt, hle⟩
  rcases lt_or_ge a eps with ha | ha
  · rw [softRound_id ha]
    exact hle b
  · rcases hab.lt_or_eq with hab | rfl
    · by_cases hx : x = n
      · rw [hx, C36_integers n b he, C36_integers n a he]
      · exact (hlt a b ha hab hx).le
    · exact le_refl _

/-- **C36, the limit.** The distance from the nearest integer falls exponentially with the temperature; so soft rounding tends
to rounding, at every argument that is not half way between two integers, where it is the identity for every
temperature. -/
theorem C36_limit (x : ℝ) (n : ℤ) {eps : ℝ} (he : 0 < eps) :
    (|x - n| < 1 / 2 → (∀ a : ℝ, eps ≤ a → |softRound x a eps - n| ≤ exp (-2 * a * (1 / 2 - |x - n|))) ∧
      Tendsto (fun a => softRound x a eps) atTop (𝓝 n)) ∧
      ∀ a : ℝ, softRound (n + 1 / 2) a eps = n + 1 / 2 := by
  constructor
  · intro h
    have hb : ∀ a : ℝ, eps ≤ a → |softRound x a eps - n| ≤ exp (-2 * a * (1 / 2 - |x - n|)) := by
      intro a ha
      rw [error_eq h a eps he ha]
      exact half_sub_curve (he.trans_le ha) (by linarith)
    refine ⟨hb, ?_⟩
    rw [tendsto_iff_norm_sub_tendsto_zero]
    refine squeeze_zero' (Eventually.of_forall fun a => norm_nonneg _)
      ((eventually_ge_atTop eps).mono fun a ha => hb a ha) ?_
    refine tendsto_exp_atBot.comp ?_
    have : (fun a : ℝ => -2 * a * (1 / 2 - |x - n|)) = fun a => a * (-2 * (1 / 2 - |x - n|)) := by
      funext a; ring
    rw [this]
    exact tendsto_id.atTop_mul_const_of_neg (by linarith)
  · intro a
    rcases lt_or_ge a eps with ha | ha
    · exact softRound_id ha
    · have hf : ⌊(n : ℝ) + 1 / 2⌋ = n := by rw [Int.floor_intCast_add]; norm_num
      rw [softRound_eq ha, hf, sub_self, curve_zero, add_zero]

/-- **C36, small temperatures.** Soft rounding is the identity below the threshold, and from there on it differs from its
argument by no more than `(exp (alpha² / 8) - 1) / 2`: with the default threshold there is no visible step. -/
theorem C36_small (x a : ℝ) {eps : ℝ} (he : 0 < eps) :
    (a < eps → softRound x a eps = x) ∧ (eps ≤ a → |softRound x a eps - x| ≤ (exp (a ^ 2 / 8) - 1) / 2) ∧
      |softRound x defaultEps defaultEps - x| < 1e-7 := by
  have hb : ∀ (a eps : ℝ), 0 < eps → eps ≤ a → |softRound x a eps - x| ≤ (exp (a ^ 2 / 8) - 1) / 2 := by
    intro a eps he ha
    have hpos := he.trans_le ha
    rw [softRound_eq ha]
    set d := x - ((⌊x⌋ : ℝ) + 1 / 2) with hd
    have e : (⌊x⌋ : ℝ) + 1 / 2 + curve a d - x = curve a d - d := by rw [hd]; ring
    rw [e]
    have h1 := Int.floor_le x
    have h2 := Int.lt_floor_add_one x
    have h3 : 1 ≤ exp (a ^ 2 / 8) := one_le_exp (by positivity)
    rcases le_or_gt 0 d with h0 | h0
    · have l := le_curve hpos h0 (by linarith)
      have u := curve_le hpos h0
      rw [abs_of_nonneg (by linarith)]
      nlinarith
    · have l := le_curve hpos (show 0 ≤ -d by linarith) (by linarith)
      have u := curve_le hpos (show 0 ≤ -d by linarith)
      rw [curve_neg] at l u
      rw [abs_of_nonpos (by linarith)]
      nlinarith
  refine ⟨fun h => softRound_id h, hb a eps he, ?_⟩
  have h1 := hb defaultEps defaultEps (by unfold defaultEps; norm_num) (le_refl _)
  refine lt_of_le_of_lt h1 ?_
  have hs : (defaultEps : ℝ) ^ 2 / 8 = 1.25e-7 := by unfold defaultEps; norm_num
  rw [hs]
  have := exp_bound_div_one_sub_of_interval (x := 1.25e-7) (by norm_num) (by norm_num)
  have h2 : (1 : ℝ) / (1 - 1.25e-7) < 1 + 1.9e-7 := by norm_num
  linarith

/-- C36 with temperatures is not vacuous: at 0.8, the integer is 1, and soft rounding is strictly closer to it at 5 than
at 2. -/
example : |softRound 0.8 5 defaultEps - 1| < |softRound 0.8 2 defaultEps - 1| ∧
    |softRound 0.8 2 defaultEps - 1| ≤ |0.8 - 1| := by
  have h := C36_alpha 0.8 1 (by norm_num [abs_lt]) (eps := defaultEps) (by unfold defaultEps; norm_num)
  have h1 := h.2.1 2 5 (by unfold defaultEps; norm_num) (by norm_num) (by norm_num)
  have h2 := h.2.2 2
  push_cast at h1 h2
  exact ⟨h1, h2⟩

end Verif.Functional.SoftRoundAlpha
