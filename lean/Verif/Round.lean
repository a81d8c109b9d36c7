import Mathlib.Data.Real.Basic
import Mathlib.Algebra.Order.Round
import Mathlib.Algebra.Order.Archimedean.Real.Basic
import Mathlib.Tactic.Linarith

/-
Rounding to the nearest integer with ties to even, as done by numpy's and PyTorch's `round`.
-/
namespace Verif

/-- `round`: to the nearest integer, ties to even. -/
noncomputable def roundHalfEven (x : ℝ) : ℤ :=
  if x - ⌊x⌋ < 1 / 2 then ⌊x⌋
  else if 1 / 2 < x - ⌊x⌋ then ⌊x⌋ + 1
  else if Even ⌊x⌋ then ⌊x⌋ else ⌊x⌋ + 1

theorem roundHalfEven_near (x : ℝ) : |(roundHalfEven x : ℝ) - x| ≤ 1 / 2 := by
  have h1 := Int.floor_le x
  have h2 := Int.lt_floor_add_one x
  unfold roundHalfEven
  split_ifs with a b c <;> rw [abs_le] <;> push_cast <;> constructor <;> linarith

theorem roundHalfEven_of_near (x : ℝ) (k : ℤ) (h : |x - k| < 1 / 2) : roundHalfEven x = k := by
  have h1 := roundHalfEven_near x
  rw [abs_le] at h1
  rw [abs_lt] at h
  have h2 : ((roundHalfEven x : ℝ)) < k + 1 := by linarith
  have h3 : (k : ℝ) < roundHalfEven x + 1 := by linarith
  have h2' : roundHalfEven x < k + 1 := by exact_mod_cast h2
  have h3' : k < roundHalfEven x + 1 := by exact_mod_cast h3
  omega

theorem roundHalfEven_int (k : ℤ) : roundHalfEven (k : ℝ) = k :=
  roundHalfEven_of_near _ _ (by norm_num)

/-- Rounding commutes with adding an integer, except at ties. -/
theorem roundHalfEven_add_int (x : ℝ) (k : ℤ) (h : x - ⌊x⌋ ≠ 1 / 2) :
    roundHalfEven (x + k) = roundHalfEven x + k := by
  unfold roundHalfEven
  rw [Int.floor_add_intCast]
  have e : x + k - ((⌊x⌋ + k : ℤ) : ℝ) = x - ⌊x⌋ := by push_cast; ring
  rw [e]
  rcases lt_or_gt_of_ne h with h | h
  · rw [if_pos h, if_pos h]
  · rw [if_neg (by linarith), if_pos h, if_neg (by linarith), if_pos h]; ring

/-- It always commutes with adding an even integer. -/
theorem roundHalfEven_add_even (x : ℝ) (k : ℤ) (hk : Even k) :
    roundHalfEven (x + k) = roundHalfEven x + k := by
  unfold roundHalfEven
  rw [Int.floor_add_intCast]
  have e : x + k - ((⌊x⌋ + k : ℤ) : ℝ) = x - ⌊x⌋ := by push_cast; ring
  have e2 : Even (⌊x⌋ + k) ↔ Even ⌊x⌋ := by
    constructor
    · intro h
      have := h.sub hk
      rwa [add_sub_cancel_right] at this
    · intro h; exact h.add hk
  rw [e]
  simp only [e2]
  split_ifs <;> ring

/-- At ties it does not commute with adding an odd integer: the two results differ by one. -/
theorem roundHalfEven_tie_odd (x : ℝ) (k : ℤ) (h : x - ⌊x⌋ = 1 / 2) (hk : ¬ Even k) :
    roundHalfEven (x + k) ≠ roundHalfEven x + k := by
  unfold roundHalfEven
  rw [Int.floor_add_intCast]
  have e : x + k - ((⌊x⌋ + k : ℤ) : ℝ) = x - ⌊x⌋ := by push_cast; ring
  have e2 : Even (⌊x⌋ + k) ↔ ¬ Even ⌊x⌋ := by
    rw [Int.even_add]
    simp only [hk, iff_false]
  rw [e, h]
  simp only [lt_irrefl, if_false, e2]
  by_cases hc : Even ⌊x⌋
  · simp only [hc, not_true, if_false, if_true]; omega
  · simp only [hc, not_false_iff, if_true, if_false]; omega

theorem roundHalfEven_mono {x y : ℝ} (h : x ≤ y) : roundHalfEven x ≤ roundHalfEven y := by
  by_contra hc
  push Not at hc
  have h1 := abs_le.1 (roundHalfEven_near x)
  have h2 := abs_le.1 (roundHalfEven_near y)
  have h3 : (roundHalfEven y : ℝ) + 1 ≤ roundHalfEven x := by exact_mod_cast hc
  -- both are ties at the same point
  have e1 : x = y := by linarith
  subst e1
  omega

end Verif
