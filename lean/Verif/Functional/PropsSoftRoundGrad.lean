import Verif.Functional.SoftRoundGrad
import Verif.Functional.PropsGradients
import Verif.Functional.PropsSoftRound
import Mathlib.Analysis.Calculus.Deriv.Inverse
import Mathlib.Analysis.SpecialFunctions.Trigonometric.DerivHyp

/-!
C145: the gradients of soft rounding.
-/

namespace Verif.Functional.Gradients

open Real Verif.Layers Filter Topology

theorem hasDerivAt_tanh (x : ℝ) : HasDerivAt Real.tanh (1 - Real.tanh x ^ 2) x := by
  have h := (Real.hasDerivAt_sinh x).fun_div (Real.hasDerivAt_cosh x) (Real.cosh_pos x).ne'
  have e : Real.tanh = fun y => Real.sinh y / Real.cosh y := funext fun y => Real.tanh_eq_sinh_div_cosh y
  rw [e]
  have hc := (Real.cosh_pos x).ne'
  refine h.congr_deriv (Eq.symm ?_)
  show 1 - (Real.sinh x / Real.cosh x) ^ 2 = _
  rw [div_pow, ← pow_two, ← pow_two, sub_div, div_self (pow_ne_zero 2 hc)]

theorem one_sub_tanh_sq_pos (x : ℝ) : 0 < 1 - Real.tanh x ^ 2 := by
  have h1 := Real.neg_one_lt_tanh x
  have h2 := Real.tanh_lt_one x
  nlinarith

/-- The slope of soft rounding. -/
noncomputable def slope (a x : ℝ) : ℝ := a * (1 - Real.tanh (a * (x - (⌊x⌋ + 1 / 2))) ^ 2) / (Real.tanh (a / 2) * 2)

theorem slope_pos {a : ℝ} (ha : 0 < a) (x : ℝ) : 0 < slope a x :=
  div_pos (mul_pos ha (one_sub_tanh_sq_pos _)) (by have := tanh_half_pos ha; linarith)

theorem curve_deriv (a c x : ℝ) :
    HasDerivAt (fun t => c + curve a (t - c)) (a * (1 - Real.tanh (a * (x - c)) ^ 2) / (Real.tanh (a / 2) * 2)) x := by
  have h1 : HasDerivAt (fun t => a * (t - c)) a x := by
    simpa using ((hasDerivAt_id x).sub_const c).const_mul a
  have h2 := ((hasDerivAt_tanh (a * (x - c))).comp x h1).div_const (Real.tanh (a / 2) * 2)
  exact (h2.const_add c).congr_deriv (by ring)

/-- Soft rounding is differentiable everywhere, also at the integers, where two pieces meet. -/
theorem softRound_deriv {alpha eps : ℝ} (he : 0 < eps) (h : eps ≤ alpha) (x : ℝ) :
    HasDerivAt (fun t => softRound t alpha eps) (slope alpha x) x := by
  have ha : 0 < alpha := he.trans_le h
  have f1 := Int.floor_le x
  have f2 := Int.lt_floor_add_one x
  have hd := curve_deriv alpha ((⌊x⌋ : ℝ) + 1 / 2) x
  have hright : HasDerivWithinAt (fun t => softRound t alpha eps) (slope alpha x) (Set.Ici x) x := by
    refine (hd.hasDerivWithinAt (s := Set.Ici x)).congr_of_eventuallyEq ?_ ?_
    · filter_upwards [inter_mem_nhdsWithin (Set.Ici x) (Iio_mem_nhds f2)] with t ht
      have : ⌊t⌋ = ⌊x⌋ := by
        rw [Int.floor_eq_iff]; exact ⟨f1.trans ht.1, ht.2⟩
      rw [softRound_eq h, this]
    · rw [softRound_eq h]
  have hleft : HasDerivWithinAt (fun t => softRound t alpha eps) (slope alpha x) (Set.Iic x) x := by
    rcases lt_or_eq_of_le f1 with hlt | heq
    · refine (hd.hasDerivWithinAt (s := Set.Iic x)).congr_of_eventuallyEq ?_ ?_
      · filter_upwards [inter_mem_nhdsWithin (Set.Iic x) (Ioi_mem_nhds hlt)] with t ht
        have : ⌊t⌋ = ⌊x⌋ := by
          rw [Int.floor_eq_iff]; exact ⟨le_of_lt ht.2, lt_of_le_of_lt ht.1 f2⟩
        rw [softRound_eq h, this]
      · rw [softRound_eq h]
    · have hd' := curve_deriv alpha ((⌊x⌋ : ℝ) - 1 / 2) x
      have e : slope alpha x = alpha * (1 - Real.tanh (alpha * (x - ((⌊x⌋ : ℝ) - 1 / 2))) ^ 2) / (Real.tanh (alpha / 2) * 2) := by
        unfold slope
        have e1 : alpha * (x - ((⌊x⌋ : ℝ) + 1 / 2)) = -(alpha * (x - ((⌊x⌋ : ℝ) - 1 / 2))) := by rw [heq]; ring
        rw [e1, Real.tanh_neg, neg_sq]
      rw [e]
      have this : softRound x alpha eps = x := by
        have := C36_integers ⌊x⌋ alpha he
        rwa [heq] at this
      refine (hd'.hasDerivWithinAt (s := Set.Iic x)).congr_of_eventuallyEq ?_ ?_
      · have hl : x - 1 < x := by linarith
        filter_upwards [inter_mem_nhdsWithin (Set.Iic x) (Ioi_mem_nhds hl)] with t ht
        rcases lt_or_eq_of_le (show t ≤ x from ht.1) with h1 | h1
        · have : ⌊t⌋ = ⌊x⌋ - 1 := by
            rw [Int.floor_eq_iff]; push_cast
            have := ht.2
            simp only [Set.mem_Ioi] at this
            constructor <;> linarith
          rw [softRound_eq h, this]
          push_cast
          ring_nf
        · rw [h1, this, heq, show x - (x - 1 / 2) = 1 / 2 by ring, curve_half ha]
          ring
      · rw [this, heq, show x - (x - 1 / 2) = 1 / 2 by ring, curve_half ha]
        ring
  have := hleft.union hright
  rwa [Set.Iic_union_Ici, hasDerivWithinAt_univ] at this

/-- The floor of a tensor stays as it is. -/
theorem Tracks.floor {a : Node} {f t} (ha : Tracks a f t) : Tracks a.floor (fun _ => (⌊f t⌋ : ℝ)) t := by
  have hq := ha.quiet
  obtain ⟨d, h1, h2, h3⟩ := ha
  refine ⟨0, by rw [Node.floor, h1]; rfl, fun g => ?_, hasDerivAt_const _ _⟩
  rw [zero_mul]
  exact hq

theorem Tracks.tanh {a : Node} {f t} (ha : Tracks a f t) : Tracks (Node.tanh Real.tanh a) (fun t => Real.tanh (f t)) t := by
  obtain ⟨d, h1, h2, h3⟩ := ha
  refine ⟨(1 - Real.tanh (f t) ^ 2) * d, by rw [Node.tanh, h1]; rfl, fun g => ?_, (hasDerivAt_tanh _).comp t h3⟩
  show a.back (mul (.val g) (onVal _ a.val)) = _
  rw [h1]
  show a.back (.val (g * _)) = _
  rw [h2]; congr 1; ring

/-- **C145 (soft_round).** In exact arithmetic the gradient of `soft_round` is its derivative, at every argument and for every
temperature, and it is positive: also at the integers, and below the threshold where it is one. -/
theorem C145_soft_round (alpha : ℝ) {eps : ℝ} (he : 0 < eps) (x : ℝ) :
    ∃ g, 0 < g ∧ (softRoundN Real.tanh alpha eps (Node.leaf x)).val = .val (softRound x alpha eps) ∧
      (softRoundN Real.tanh alpha eps (Node.leaf x)).grad = .val g ∧ HasDerivAt (fun t => softRound t alpha eps) g x := by
  have hmax : 0 < max alpha eps := he.trans_le (le_max_right _ _)
  have hz : Real.tanh (max alpha eps / 2) * 2 ≠ 0 := by have := tanh_half_pos hmax; linarith
  have hx := tracks_leaf x
  have hm := hx.floor.shift 0.5
  have hy := hm.add (((hx.add (hm.scale (-1))).scale (max alpha eps)).tanh.over
    (tracks_const (Real.tanh (max alpha eps / 2) * 2) x) hz)
  by_cases h : alpha < eps
  · have ht : Tracks (softRoundN Real.tanh alpha eps (Node.leaf x)) (fun t => t) x := Tracks.sel_pos h hx hy.quiet
    have e : (fun t => softRound t alpha eps) = fun t => t := funext fun t => softRound_id h
    obtain ⟨g, h1, h2⟩ := ht.grad
    have hg : g = 1 := h2.unique (hasDerivAt_id x)
    refine ⟨g, by rw [hg]; exact one_pos, ?_, h1, by rw [e]; exact h2⟩
    rw [ht.value, softRound_id h]
  · have ha : eps ≤ alpha := not_lt.1 h
    rw [max_eq_left ha] at hy hmax
    have ht : Tracks (softRoundN Real.tanh alpha eps (Node.leaf x)) (fun t => (⌊x⌋ : ℝ) + 1 / 2 + curve alpha (t - (⌊x⌋ + 1 / 2))) x := by
      unfold softRoundN
      simp only [max_eq_left ha]
      refine Tracks.sel_neg h hx.quiet (hy.congr (Eventually.of_forall fun t => ?_))
      unfold curve
      norm_num [sub_eq_add_neg]
    obtain ⟨g, h1, h2⟩ := ht.grad
    have hg : g = slope alpha x := h2.unique (curve_deriv alpha _ x)
    refine ⟨g, by rw [hg]; exact slope_pos hmax x, ?_, h1, by rw [hg]; exact softRound_deriv he ha x⟩
    rw [ht.value, softRound_eq ha]

theorem softRoundInverse_deriv {alpha eps : ℝ} (he : 0 < eps) (h : eps ≤ alpha) (y : ℝ) :
    HasDerivAt (fun t => softRoundInverse t alpha eps) (slope alpha (softRoundInverse y alpha eps))⁻¹ y := by
  have hmono : Monotone fun t => softRoundInverse t alpha eps := by
    intro a b hab
    have hs := (C36_strictMono alpha he).le_iff_le (a := softRoundInverse a alpha eps) (b := softRoundInverse b alpha eps)
    simp only [(C36_inverse _ alpha he).2] at hs
    exact hs.1 hab
  have hsurj : Function.Surjective fun t => softRoundInverse t alpha eps := fun x => ⟨_, (C36_inverse x alpha he).1⟩
  exact HasDerivAt.of_local_left_inverse (f := fun t => softRound t alpha eps)
    (hmono.continuous_of_surjective hsurj).continuousAt (softRound_deriv he h _)
    (slope_pos (he.trans_le h) _).ne' (Eventually.of_forall fun t => (C36_inverse t alpha he).2)

theorem softRoundInverseN_lin {alpha eps : ℝ} (he : 0 < eps) (y : ℝ) {a : Node} (hv : a.val = .val y)
    (hb : ∀ g : ℝ, a.back (.val g) = .val g) :
    ∃ d, 0 < d ∧ (softRoundInverseN Real.tanh alpha eps a).val = .val (softRoundInverse y alpha eps) ∧
      (∀ g : ℝ, (softRoundInverseN Real.tanh alpha eps a).back (.val g) = .val (d * g)) ∧
      HasDerivAt (fun t => softRoundInverse t alpha eps) d y := by
  have hy : Tracks a (fun t => t) y := ⟨1, hv, fun g => by rw [hb, one_mul], hasDerivAt_id y⟩
  have hm := hy.floor.shift 0.5
  have hmax : 0 < max alpha eps := he.trans_le (le_max_right _ _)
  have hth := tanh_half_pos hmax
  set z := Real.tanh (max alpha eps / 2) * 2 with hz
  have hs := (hy.add (hm.scale (-1))).scale z
  have e5 : ∀ u : ℝ, u + -1 * ((⌊y⌋ : ℝ) + 0.5) = u - (⌊y⌋ + 1 / 2) := fun u => by norm_num; ring
  -- the argument of the inverse hyperbolic tangent is in the open interval
  have f1 := Int.floor_le y
  have f2 := Int.lt_floor_add_one y
  have hz2 : z < 2 := by rw [hz]; have := Real.tanh_lt_one (max alpha eps / 2); linarith
  have hzp : 0 < z := by rw [hz]; linarith
  set s := z * (y - (⌊y⌋ + 1 / 2)) with hsd
  have hs1 : -1 < s := by rw [hsd]; nlinarith
  have hs2 : s < 1 := by rw [hsd]; nlinarith
  have hsq : 0 < 1 - s ^ 2 := by nlinarith
  -- the result before clamping
  have hr1 : -(1 / 2) ≤ artanh s / max alpha eps ∧ artanh s / max alpha eps ≤ 1 / 2 := by
    have l : -(Real.tanh (max alpha eps / 2)) ≤ s := by rw [hsd]; nlinarith
    have u : s ≤ Real.tanh (max alpha eps / 2) := by rw [hsd]; nlinarith
    have mem : s ∈ Set.Ioo (-1 : ℝ) 1 := ⟨hs1, hs2⟩
    rw [← Real.tanh_neg] at l
    have l' := (artanh_le_artanh_iff ⟨Real.neg_one_lt_tanh _, Real.tanh_lt_one _⟩ mem).2 l
    have u' := (artanh_le_artanh_iff mem ⟨Real.neg_one_lt_tanh _, Real.tanh_lt_one _⟩).2 u
    rw [artanh_tanh] at l' u'
    rw [le_div_iff₀ hmax, div_le_iff₀ hmax]
    constructor <;> linarith
  have hsv : ((a.add ((a.floor.shift 0.5).scale (-1))).scale z).val = .val s := by
    rw [hs.value]; congr 1; simp only [e5]; rfl
  -- the backward pass
  set S := (a.add ((a.floor.shift 0.5).scale (-1))).scale z with hS
  have hSb : ∀ g : ℝ, S.back (.val g) = .val (z * g) := by
    obtain ⟨d, -, k2, k3⟩ := hs
    have : d = z := by
      refine k3.unique ?_
      have := (((hasDerivAt_id y).add (hasDerivAt_const y (-1 * ((⌊y⌋ : ℝ) + 0.5)))).const_mul z)
      simpa using this
    rw [this] at k2
    exact k2
  have hAv : S.atanh.val = .val (artanh s) := by
    show atanhF S.val = _
    rw [hsv]
    show (if s = 1 then F.posInf else if s = -1 then _ else if |s| < 1 then _ else _) = _
    rw [if_neg hs2.ne, if_neg hs1.ne', if_pos (abs_lt.2 ⟨hs1, hs2⟩)]
  have hAb : ∀ g : ℝ, S.atanh.back (.val g) = .val (z / (1 - s ^ 2) * g) := fun g => by
    show S.back (div (mul (.val g) (.val 1)) (onVal _ S.val)) = _
    rw [hsv]
    show S.back (div (.val (g * 1)) (.val (1 - s ^ 2))) = _
    rw [div_val hsq.ne', hSb]
    congr 1; ring
  set R := S.atanh.over (Node.const (max alpha eps)) with hR
  have hRv : R.val = .val (artanh s / max alpha eps) := by
    show div S.atanh.val (.val (max alpha eps)) = _
    rw [hAv, div_val hmax.ne']
  have hRb : ∀ g : ℝ, R.back (.val g) = .val (z / (max alpha eps * (1 - s ^ 2)) * g) := fun g => by
    show F.add (S.atanh.back (div (.val g) (.val (max alpha eps)))) (.val 0) = _
    rw [div_val hmax.ne', hAb]
    show F.val _ = _
    congr 1
    have := hmax.ne'
    have := hsq.ne'
    field_simp
    ring
  have hm5 : ∀ u : ℝ, u + 0.5 = u + 1 / 2 := fun u => by norm_num
  have c0 : ¬ (R.val.Lt (.val (-0.5)) ∨ (F.val 0.5).Lt R.val) := by
    rw [hRv]
    show ¬ (artanh s / max alpha eps < -0.5 ∨ 0.5 < artanh s / max alpha eps)
    push Not
    constructor <;> linarith [hr1.1, hr1.2]
  have hCv : (R.clamp (-0.5) 0.5).val = .val (artanh s / max alpha eps) := by
    show clampF _ _ R.val = _
    rw [hRv]
    show F.val (min (max _ _) _) = _
    rw [max_eq_left (by linarith [hr1.1]), min_eq_left (by linarith [hr1.2])]
  have hCb : ∀ g : ℝ, (R.clamp (-0.5) 0.5).back (.val g) = .val (z / (max alpha eps * (1 - s ^ 2)) * g) := fun g => by
    simp only [Node.clamp, c0, if_false]
    exact hRb g
  set d := z / (max alpha eps * (1 - s ^ 2)) with hd
  have hdpos : 0 < d := div_pos hzp (mul_pos hmax hsq)
  have hX : Tracks ((a.floor.shift 0.5).add (R.clamp (-0.5) 0.5))
      (fun t => (⌊y⌋ : ℝ) + 0.5 + (artanh s / max alpha eps + d * (t - y))) y := by
    refine hm.add ⟨d, by rw [hCv]; congr 1; ring, hCb, ?_⟩
    simpa using (((hasDerivAt_id y).sub_const y).const_mul d).const_add (artanh s / max alpha eps)
  by_cases h : alpha < eps
  · have ht : Tracks (softRoundInverseN Real.tanh alpha eps a) (fun t => t) y := Tracks.sel_pos h hy hX.quiet
    have e : (fun t => softRoundInverse t alpha eps) = fun t => t := funext fun t => by
      unfold softRoundInverse; simp only; rw [if_pos h]
    obtain ⟨g, h1, h2, h3⟩ := ht
    have hg : g = 1 := h3.unique (hasDerivAt_id y)
    exact ⟨g, by rw [hg]; exact one_pos, by rw [h1]; exact congrArg F.val (congrFun e y).symm, h2, by rw [e]; exact h3⟩
  · have ha : eps ≤ alpha := not_lt.1 h
    have ht : Tracks (softRoundInverseN Real.tanh alpha eps a)
        (fun t => (⌊y⌋ : ℝ) + 0.5 + (artanh s / max alpha eps + d * (t - y))) y := Tracks.sel_neg h hy.quiet hX
    have hval : softRoundInverse y alpha eps = ⌊y⌋ + 1 / 2 + artanh s / max alpha eps := by
      rw [softRoundInverse_eq ha, max_eq_left ha]
      rw [max_eq_left ha] at hr1
      have : (y - ((⌊y⌋ : ℝ) + 1 / 2)) * (Real.tanh (alpha / 2) * 2) = s := by
        rw [hsd, hz, max_eq_left ha]; ring
      rw [this, clamp, max_eq_left hr1.1, min_eq_left hr1.2]
    have hfl : ⌊softRoundInverse y alpha eps⌋ = ⌊y⌋ := by
      have := floor_softRound (x := softRoundInverse y alpha eps) (alpha := alpha) he
      rw [(C36_inverse y alpha he).2] at this
      exact this.symm
    obtain ⟨g, h1, h2, h3⟩ := ht
    have hg : g = d := by
      refine h3.unique ?_
      simpa using ((((hasDerivAt_id y).sub_const y).const_mul d).const_add (artanh s / max alpha eps)).const_add
        ((⌊y⌋ : ℝ) + 0.5)
    have hslope : (slope alpha (softRoundInverse y alpha eps))⁻¹ = d := by
      unfold slope
      rw [hfl, hval, show (⌊y⌋ : ℝ) + 1 / 2 + artanh s / max alpha eps - (⌊y⌋ + 1 / 2) = artanh s / max alpha eps by ring, hd, hz,
        max_eq_left ha]
      rw [max_eq_left ha] at hmax
      rw [mul_div_cancel₀ _ hmax.ne', tanh_artanh ⟨hs1, hs2⟩, inv_div]
    subst hg
    refine ⟨_, hdpos, ?_, h2, by rw [← hslope]; exact softRoundInverse_deriv he ha y⟩
    rw [h1, hval]
    congr 1
    simp only
    norm_num

/-- **C145 (soft_round_inverse, soft_round_conditional_mean).** In exact arithmetic the gradients are the derivatives, at every argument and for
every temperature, and they are positive. -/
theorem C145_inverse_partial (alpha : ℝ) {eps : ℝ} (he : 0 < eps) (y : ℝ) :
    (∃ g, 0 < g ∧ (softRoundInverseN Real.tanh alpha eps (Node.leaf y)).val = .val (softRoundInverse y alpha eps) ∧
      (softRoundInverseN Real.tanh alpha eps (Node.leaf y)).grad = .val g ∧
      HasDerivAt (fun t => softRoundInverse t alpha eps) g y) ∧
    ∃ g, 0 < g ∧ (softRoundConditionalMeanN Real.tanh alpha (Node.leaf y)).val = .val (softRoundConditionalMean y alpha) ∧
      (softRoundConditionalMeanN Real.tanh alpha (Node.leaf y)).grad = .val g ∧
      HasDerivAt (fun t => softRoundConditionalMean t alpha) g y := by
  constructor
  · obtain ⟨d, h0, h1, h2, h3⟩ := softRoundInverseN_lin (alpha := alpha) he y (a := Node.leaf y) rfl (fun g => rfl)
    exact ⟨d, h0, h1, by rw [Node.grad, h2, mul_one], h3⟩
  · have he' : 0 < defaultEps := by unfold defaultEps; norm_num
    have e : y + -0.5 = y - 0.5 := by ring
    obtain ⟨d, h0, h1, h2, h3⟩ := softRoundInverseN_lin (alpha := alpha) he' (y - 0.5) (a := (Node.leaf y).shift (-0.5))
      (by rw [← e]; rfl) (fun g => rfl)
    refine ⟨d, h0, ?_, ?_, ?_⟩
    · show F.add (Node.val _) (.val 0.5) = _
      rw [h1]; rfl
    · show Node.back _ _ = _
      exact (h2 1).trans (by rw [mul_one])
    · unfold softRoundConditionalMean
      have := (HasDerivAt.comp y (h₂ := fun t => softRoundInverse t alpha defaultEps) (h := fun t => t - 0.5) (by exact h3)
        ((hasDerivAt_id y).sub_const 0.5)).add_const 0.5
      simpa using this

/-- **C145 is violated at the integers for large temperatures.** Once the computed hyperbolic tangent of half the temperature is one, the
gradient of `soft_round_inverse` at every integer is not-a-number, though the value is right; so is that of
`soft_round_conditional_mean` half a unit above every integer. -/
theorem C145_violated {th : ℝ → ℝ} {alpha eps : ℝ} (h : eps ≤ alpha) (ha : 0 < alpha) (hth : th (alpha / 2) = 1) (n : ℤ) :
    ((softRoundInverseN th alpha eps (Node.leaf n)).val = .val n ∧
      (softRoundInverseN th alpha eps (Node.leaf n)).grad = .nan) ∧
    (defaultEps ≤ alpha → (softRoundConditionalMeanN th alpha (Node.leaf (n + 0.5))).val = .val (n + 0.5) ∧
      (softRoundConditionalMeanN th alpha (Node.leaf (n + 0.5))).grad = .nan) := by
  have key : ∀ (eps : ℝ) (a : Node), eps ≤ alpha → a.val = .val n → (∀ g, a.back g = g) →
      (softRoundInverseN th alpha eps a).val = .val n ∧ (softRoundInverseN th alpha eps a).back (.val 1) = .nan := by
    intro eps a h hv hb
    have hS : ((a.add ((a.floor.shift 0.5).scale (-1))).scale (th (alpha / 2) * 2)).val = .val (-1) := by
      show mul (.val (th (alpha / 2) * 2)) (F.add a.val (mul (.val (-1)) (F.add (onVal _ a.val) (.val 0.5)))) = _
      rw [hv, hth]
      show F.val (1 * 2 * ((n : ℝ) + -1 * ((⌊(n : ℝ)⌋ : ℝ) + 0.5))) = _
      rw [Int.floor_intCast]
      congr 1
      ring
    set S := (a.add ((a.floor.shift 0.5).scale (-1))).scale (th (alpha / 2) * 2) with hSd
    have hR : (S.atanh.over (Node.const alpha)).val = .negInf := by
      show div (atanhF S.val) (.val alpha) = _
      rw [hS]
      have : atanhF (.val (-1)) = .negInf := by
        show (if (-1 : ℝ) = 1 then F.posInf else if (-1 : ℝ) = -1 then .negInf else _) = _
        rw [if_neg (by norm_num), if_pos rfl]
      rw [this]
      show (if alpha = 0 then F.negInf else infOf (-alpha)) = _
      rw [if_neg ha.ne', infOf, if_neg (by linarith), if_pos (by linarith)]
    constructor
    · unfold softRoundInverseN
      simp only [max_eq_left h, Node.sel, not_lt.2 h, if_false]
      show F.add (F.add (onVal _ a.val) (.val 0.5)) (clampF _ _ (Node.val _)) = _
      rw [← hSd, hR, hv]
      show F.val ((⌊(n : ℝ)⌋ : ℝ) + 0.5 + -0.5) = _
      rw [Int.floor_intCast]
      congr 1
      ring
    · unfold softRoundInverseN
      simp only [max_eq_left h]
      rw [sel_back_neg (not_lt.2 h), hb, ← hSd]
      have hC : ((S.atanh.over (Node.const alpha)).clamp (-0.5) 0.5).back (.val 1) = .nan := by
        have c : (S.atanh.over (Node.const alpha)).val.Lt (.val (-0.5)) ∨ (F.val 0.5).Lt (S.atanh.over (Node.const alpha)).val := by
          rw [hR]; exact .inl trivial
        simp only [Node.clamp, c, if_true]
        show F.add (S.back (div (mul (div (.val 0) (.val alpha)) (.val 1)) (onVal _ S.val))) _ = _
        rw [hS, div_val ha.ne']
        show F.add (S.back (if (1 - (-1 : ℝ) ^ 2) = 0 then infOf (0 / alpha * 1) else _)) _ = _
        rw [if_pos (by norm_num), zero_div, zero_mul, infOf_zero]
        have : S.back .nan = .nan := by
          show F.add (a.back (mul .nan _)) _ = _
          rw [nan_mul, hb, nan_add]
        rw [this, nan_add]
      show F.add _ (F.add _ (Node.back _ _)) = _
      rw [hC, add_nan, add_nan]
  refine ⟨key eps (Node.leaf n) h rfl (fun g => rfl), fun h' => ?_⟩
  have hv : ((Node.leaf ((n : ℝ) + 0.5)).shift (-0.5)).val = .val n := by
    show F.val ((n : ℝ) + 0.5 + -0.5) = _
    congr 1; ring
  obtain ⟨h1, h2⟩ := key defaultEps ((Node.leaf ((n : ℝ) + 0.5)).shift (-0.5)) h' hv (fun g => rfl)
  refine ⟨?_, h2⟩
  show F.add (Node.val _) (.val 0.5) = _
  rw [h1]; rfl

/-- With a hyperbolic tangent that is rounded to the nearest single precision number that is so for temperatures from 19 on. -/
theorem C145_violated_single {alpha : ℝ} (h : 19 ≤ alpha) (n : ℤ) :
    (softRoundInverseN (fun x => f32 (Real.tanh x)) alpha defaultEps (Node.leaf n)).grad = .nan := by
  have he : defaultEps ≤ alpha := by unfold defaultEps; linarith
  refine (C145_violated he (by linarith) ?_ n).1.2
  apply f32_one
  have h1 := Real.tanh_lt_one (alpha / 2)
  rw [abs_of_neg (by linarith)]
  have e : 1 - Real.tanh (alpha / 2) = 2 / (exp alpha + 1) := by
    rw [Real.tanh_eq_sinh_div_cosh, Real.sinh_eq, Real.cosh_eq]
    have e2 : exp alpha = exp (alpha / 2) * exp (alpha / 2) := by rw [← exp_add]; congr 1; ring
    rw [e2, exp_neg]
    have := exp_pos (alpha / 2)
    field_simp
    ring
  have h2 : (134217728 : ℝ) ≤ exp alpha := by
    have : exp (Real.log 2 * 27) ≤ exp alpha := exp_le_exp.2 (by have := Real.log_two_lt_d9; linarith)
    refine le_trans (le_of_eq ?_) this
    rw [show Real.log 2 * 27 = Real.log 2 * ((27 : ℕ) : ℝ) by norm_num, ← Real.rpow_def_of_pos (by norm_num), Real.rpow_natCast]
    norm_num
  have h3 : 2 / (exp alpha + 1) ≤ 2 ^ (-26 : ℤ) := by
    have hb : (2 : ℝ) ^ (-26 : ℤ) = 2 / 134217728 := by norm_num
    rw [hb]
    exact div_le_div_of_nonneg_left (by norm_num) (by norm_num) (by linarith)
  linarith

end Verif.Functional.Gradients
