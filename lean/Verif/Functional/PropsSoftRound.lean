import Verif.Functional.SoftRound
import Mathlib.MeasureTheory.Integral.Average
import Mathlib.Analysis.SpecialFunctions.Integrals.Basic
import Mathlib.Tactic.Linarith

/-!
# C36: soft rounding
-/

namespace Verif.Functional

open Real

theorem tanh_strictMono : StrictMono tanh := by
  intro x y hxy
  have hx : tanh x ∈ Set.Ioo (-1 : ℝ) 1 := ⟨neg_one_lt_tanh x, tanh_lt_one x⟩
  have hy : tanh y ∈ Set.Ioo (-1 : ℝ) 1 := ⟨neg_one_lt_tanh y, tanh_lt_one y⟩
  rw [← artanh_lt_artanh_iff hx hy, artanh_tanh, artanh_tanh]
  exact hxy

/-- The curve on one unit interval, centred. -/
noncomputable def curve (a d : ℝ) : ℝ := tanh (a * d) / (tanh (a / 2) * 2)

theorem tanh_half_pos {a : ℝ} (ha : 0 < a) : 0 < tanh (a / 2) := by
  have := tanh_strictMono (show (0 : ℝ) < a / 2 by linarith)
  rwa [tanh_zero] at this

theorem curve_strictMono {a : ℝ} (ha : 0 < a) : StrictMono (curve a) := by
  intro x y hxy
  unfold curve
  have := tanh_half_pos ha
  gcongr
  exact tanh_strictMono (by gcongr)

theorem curve_zero (a : ℝ) : curve a 0 = 0 := by simp [curve]

theorem curve_half {a : ℝ} (ha : 0 < a) : curve a (1 / 2) = 1 / 2 := by
  unfold curve
  have := tanh_half_pos ha
  rw [show a * (1 / 2) = a / 2 by ring]
  field_simp

theorem curve_neg_half {a : ℝ} (ha : 0 < a) : curve a (-(1 / 2)) = -(1 / 2) := by
  unfold curve
  have := tanh_half_pos ha
  rw [show a * -(1 / 2) = -(a / 2) by ring, tanh_neg]
  field_simp

/-- The non-identity branch. -/
theorem softRound_eq {x alpha eps : ℝ} (h : eps ≤ alpha) :
    softRound x alpha eps = ⌊x⌋ + 1 / 2 + curve alpha (x - (⌊x⌋ + 1 / 2)) := by
  unfold softRound curve
  simp only
  rw [if_neg (not_lt.2 h), max_eq_left h]
  norm_num

theorem softRound_id {x alpha eps : ℝ} (h : alpha < eps) : softRound x alpha eps = x := by
  unfold softRound; simp only; rw [if_pos h]

/-- Soft rounding stays in the unit interval of its argument. -/
theorem softRound_mem {x alpha eps : ℝ} (he : 0 < eps) :
    (⌊x⌋ : ℝ) ≤ softRound x alpha eps ∧ softRound x alpha eps < ⌊x⌋ + 1 := by
  by_cases h : alpha < eps
  · rw [softRound_id h]; exact ⟨Int.floor_le x, Int.lt_floor_add_one x⟩
  · have ha : eps ≤ alpha := not_lt.1 h
    have hpos : 0 < alpha := he.trans_le ha
    rw [softRound_eq ha]
    have h1 := Int.floor_le x
    have h2 := Int.lt_floor_add_one x
    have l := (curve_strictMono hpos).monotone (show -(1 / 2) ≤ x - (⌊x⌋ + 1 / 2) by linarith)
    have u := curve_strictMono hpos (show x - (⌊x⌋ + 1 / 2) < 1 / 2 by linarith)
    rw [curve_neg_half hpos] at l
    rw [curve_half hpos] at u
    constructor <;> linarith

theorem floor_softRound {x alpha eps : ℝ} (he : 0 < eps) : ⌊softRound x alpha eps⌋ = ⌊x⌋ := by
  rw [Int.floor_eq_iff]; exact softRound_mem he

/-- C36: soft rounding is strictly increasing, for every temperature. -/
theorem C36_strictMono (alpha : ℝ) {eps : ℝ} (he : 0 < eps) : StrictMono fun x => softRound x alpha eps := by
  intro x y hxy
  show softRound x alpha eps < softRound y alpha eps
  by_cases h : alpha < eps
  · rwa [softRound_id h, softRound_id h]
  · have ha : eps ≤ alpha := not_lt.1 h
    have hpos : 0 < alpha := he.trans_le ha
    rcases lt_or_eq_of_le (Int.floor_le_floor hxy.le) with hf | hf
    · have h1 := (softRound_mem (x := x) (alpha := alpha) he).2
      have h2 := (softRound_mem (x := y) (alpha := alpha) he).1
      have h3 : (⌊x⌋ : ℝ) + 1 ≤ ⌊y⌋ := by exact_mod_cast hf
      linarith
    · rw [softRound_eq ha, softRound_eq ha, hf]
      have := curve_strictMono hpos (show x - ((⌊y⌋ : ℝ) + 1 / 2) < y - (⌊y⌋ + 1 / 2) by linarith)
      linarith

/-- C36: soft rounding fixes the integers. -/
theorem C36_integers (n : ℤ) (alpha : ℝ) {eps : ℝ} (he : 0 < eps) : softRound n alpha eps = n := by
  by_cases h : alpha < eps
  · exact softRound_id h
  · have ha : eps ≤ alpha := not_lt.1 h
    rw [softRound_eq ha, Int.floor_intCast, show (n : ℝ) - (n + 1 / 2) = -(1 / 2) by ring,
      curve_neg_half (he.trans_le ha)]
    ring

/-- C36: soft rounding commutes with integer shifts. -/
theorem C36_shift (x : ℝ) (n : ℤ) (alpha eps : ℝ) :
    softRound (x + n) alpha eps = softRound x alpha eps + n := by
  by_cases h : alpha < eps
  · rw [softRound_id h, softRound_id h]
  · have ha : eps ≤ alpha := not_lt.1 h
    rw [softRound_eq ha, softRound_eq ha, Int.floor_add_intCast]
    push_cast
    rw [show x + n - (⌊x⌋ + n + 1 / 2) = x - (⌊x⌋ + 1 / 2) by ring]
    ring

/-- C36: soft rounding moves its argument by less than half a unit, and does not cross the middle of the
unit interval. -/
theorem C36_near (x alpha : ℝ) {eps : ℝ} (he : 0 < eps) :
    |softRound x alpha eps - x| < 1 / 2 ∧
      (x < ⌊x⌋ + 1 / 2 ↔ softRound x alpha eps < ⌊x⌋ + 1 / 2) := by
  have hmid : softRound (⌊x⌋ + 1 / 2) alpha eps = ⌊x⌋ + 1 / 2 := by
    by_cases h : alpha < eps
    · exact softRound_id h
    · have ha : eps ≤ alpha := not_lt.1 h
      have hfl : ⌊(⌊x⌋ : ℝ) + 1 / 2⌋ = ⌊x⌋ := by
        rw [Int.floor_intCast_add]; norm_num
      rw [softRound_eq ha, hfl, sub_self, curve_zero]; ring
  have hiff : x < ⌊x⌋ + 1 / 2 ↔ softRound x alpha eps < ⌊x⌋ + 1 / 2 := by
    conv_rhs => rw [← hmid]
    exact ((C36_strictMono alpha he).lt_iff_lt (a := x) (b := (⌊x⌋ : ℝ) + 1 / 2)).symm
  refine ⟨?_, hiff⟩
  obtain ⟨l, u⟩ := softRound_mem (x := x) (alpha := alpha) he
  have h1 := Int.floor_le x
  have h2 := Int.lt_floor_add_one x
  rw [abs_lt]
  by_cases hx : x < ⌊x⌋ + 1 / 2
  · have := hiff.1 hx
    constructor <;> linarith
  · have h3 : ¬softRound x alpha eps < ⌊x⌋ + 1 / 2 := fun h => hx (hiff.2 h)
    constructor <;> linarith

theorem softRoundInverse_eq {y alpha eps : ℝ} (h : eps ≤ alpha) :
    softRoundInverse y alpha eps = ⌊y⌋ + 1 / 2 +
      clamp (-(1 / 2)) (1 / 2) (artanh ((y - (⌊y⌋ + 1 / 2)) * (tanh (alpha / 2) * 2)) / alpha) := by
  unfold softRoundInverse
  simp only
  rw [if_neg (not_lt.2 h), max_eq_left h]
  norm_num

/-- C36: `soft_round_inverse` undoes `soft_round`, and the other way round, for every temperature. -/
theorem C36_inverse (x alpha : ℝ) {eps : ℝ} (he : 0 < eps) :
    softRoundInverse (softRound x alpha eps) alpha eps = x ∧
      softRound (softRoundInverse x alpha eps) alpha eps = x := by
  by_cases h : alpha < eps
  · have hid : ∀ y, softRoundInverse y alpha eps = y := by
      intro y; unfold softRoundInverse; simp only; rw [if_pos h]
    rw [hid, hid, softRound_id h]; exact ⟨rfl, rfl⟩
  have ha : eps ≤ alpha := not_lt.1 h
  have hpos : 0 < alpha := he.trans_le ha
  have hth := tanh_half_pos hpos
  have h1 := Int.floor_le x
  have h2 := Int.lt_floor_add_one x
  constructor
  · rw [softRoundInverse_eq ha, floor_softRound he, softRound_eq ha]
    have e1 : ((⌊x⌋ : ℝ) + 1 / 2 + curve alpha (x - (⌊x⌋ + 1 / 2)) - (⌊x⌋ + 1 / 2)) * (tanh (alpha / 2) * 2) =
        tanh (alpha * (x - (⌊x⌋ + 1 / 2))) := by
      unfold curve; field_simp; ring
    rw [e1, artanh_tanh, mul_div_cancel_left₀ _ hpos.ne']
    unfold clamp
    rw [max_eq_left (by linarith), min_eq_left (by linarith)]
    ring
  · rw [softRoundInverse_eq ha]
    set d := x - (⌊x⌋ + 1 / 2) with hd
    have hd1 : -(1 / 2) ≤ d := by rw [hd]; linarith
    have hd2 : d < 1 / 2 := by rw [hd]; linarith
    have hlt1 := tanh_lt_one (alpha / 2)
    set s := d * (tanh (alpha / 2) * 2) with hs
    have hs1 : -tanh (alpha / 2) ≤ s := by rw [hs]; nlinarith
    have hs2 : s < tanh (alpha / 2) := by rw [hs]; nlinarith
    have hsm : s ∈ Set.Ioo (-1 : ℝ) 1 := ⟨by linarith, by linarith⟩
    have hr2 : artanh s / alpha < 1 / 2 := by
      rw [div_lt_iff₀ hpos]
      have := (artanh_lt_artanh_iff hsm ⟨by linarith, hlt1⟩).2 hs2
      rw [artanh_tanh] at this
      linarith
    have hr1 : -(1 / 2) ≤ artanh s / alpha := by
      rw [le_div_iff₀ hpos]
      have := (artanh_le_artanh_iff (show -tanh (alpha / 2) ∈ Set.Ioo (-1 : ℝ) 1 from
        ⟨by linarith, by linarith⟩) hsm).2 hs1
      rw [← tanh_neg, artanh_tanh] at this
      linarith
    unfold clamp
    rw [max_eq_left hr1, min_eq_left hr2.le]
    have hfl : ⌊(⌊x⌋ : ℝ) + 1 / 2 + artanh s / alpha⌋ = ⌊x⌋ := by
      rw [Int.floor_eq_iff]; constructor <;> linarith
    rw [softRound_eq ha, hfl]
    have e2 : (⌊x⌋ : ℝ) + 1 / 2 + artanh s / alpha - (⌊x⌋ + 1 / 2) = artanh s / alpha := by ring
    rw [e2]
    unfold curve
    rw [mul_div_cancel₀ _ hpos.ne', tanh_artanh hsm, hs, mul_div_assoc, div_self (by positivity), hd]
    ring

/-- C36: `soft_round_conditional_mean z` is the mean of a uniform variable given that its soft-rounded value is
within half a unit of `z`: those values form the unit interval around it. -/
theorem C36_conditional_mean (z alpha : ℝ) :
    {y : ℝ | |softRound y alpha defaultEps - z| ≤ 1 / 2} =
        Set.Icc (softRoundConditionalMean z alpha - 1 / 2) (softRoundConditionalMean z alpha + 1 / 2) ∧
      ⨍ y in {y : ℝ | |softRound y alpha defaultEps - z| ≤ 1 / 2}, y = softRoundConditionalMean z alpha := by
  have he : (0 : ℝ) < defaultEps := by unfold defaultEps; norm_num
  set c := softRoundConditionalMean z alpha with hc
  have hc1 : softRound (c - 1 / 2) alpha defaultEps = z - 1 / 2 := by
    have : c - 1 / 2 = softRoundInverse (z - 1 / 2) alpha defaultEps := by
      rw [hc]; unfold softRoundConditionalMean; norm_num
    rw [this, (C36_inverse _ _ he).2]
  have hc2 : softRound (c + 1 / 2) alpha defaultEps = z + 1 / 2 := by
    have := C36_shift (c - 1 / 2) 1 alpha defaultEps
    rw [hc1] at this
    push_cast at this
    rw [show c + 1 / 2 = c - 1 / 2 + 1 by ring, this]; ring
  have hset : {y : ℝ | |softRound y alpha defaultEps - z| ≤ 1 / 2} = Set.Icc (c - 1 / 2) (c + 1 / 2) := by
    ext y
    have m1 := (C36_strictMono alpha he).le_iff_le (a := c - 1 / 2) (b := y)
    have m2 := (C36_strictMono alpha he).le_iff_le (a := y) (b := c + 1 / 2)
    simp only [hc1, hc2] at m1 m2
    rw [Set.mem_ofPred_eq, Set.mem_Icc, ← m1, ← m2, abs_le]
    constructor
    · rintro ⟨a, b⟩; constructor <;> linarith
    · rintro ⟨a, b⟩; constructor <;> linarith
  refine ⟨hset, ?_⟩
  rw [hset, MeasureTheory.setAverage_eq, MeasureTheory.integral_Icc_eq_integral_Ioc,
    ← intervalIntegral.integral_of_le (by linarith), integral_id]
  simp [MeasureTheory.measureReal_def]
  ring

/-- Non-vacuity: the temperature 5 at 1.7 is not the identity branch, and the identity branch is reachable. -/
example : ¬((5 : ℝ) < defaultEps) ∧ (1e-4 : ℝ) < defaultEps ∧ (0 : ℝ) < defaultEps := by
  unfold defaultEps; norm_num

example : softRound (3 / 2) 5 defaultEps = 3 / 2 := by
  rw [softRound_eq (by unfold defaultEps; norm_num)]
  have : ⌊(3 / 2 : ℝ)⌋ = 1 := by norm_num
  rw [this]; norm_num [curve_zero]

end Verif.Functional
