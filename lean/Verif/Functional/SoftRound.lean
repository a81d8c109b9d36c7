import Mathlib.Analysis.SpecialFunctions.Artanh
import Mathlib.Algebra.Order.Floor.Ring

/-!
# Soft rounding

Models `neuralcompression/functional/_soft_round.py`, `_soft_round_inverse.py` and
`_soft_round_conditional_mean.py`, elementwise and over the real numbers (`torch.atanh` is `Real.artanh`).
-/

namespace Verif.Functional

open Real

/-- _soft_round.py:9-37 `soft_round`. -/
noncomputable def softRound (x alpha eps : ℝ) : ℝ :=
  let maximum := max alpha eps
  let m := (⌊x⌋ : ℝ) + 0.5
  let z := tanh (maximum / 2) * 2
  let y := m + tanh (maximum * (x - m)) / z
  if alpha < eps then x else y

/-- `torch.clamp(r, lo, hi)`. -/
noncomputable def clamp (lo hi r : ℝ) : ℝ := min (max r lo) hi

/-- _soft_round_inverse.py:9-40 `soft_round_inverse`. -/
noncomputable def softRoundInverse (y alpha eps : ℝ) : ℝ :=
  let maximum := max alpha eps
  let m := (⌊y⌋ : ℝ) + 0.5
  let s := (y - m) * (tanh (maximum / 2) * 2)
  let r := artanh s / maximum
  let r := clamp (-0.5) 0.5 r
  let x := m + r
  if alpha < eps then y else x

/-- The default of `eps` in both functions. -/
noncomputable def defaultEps : ℝ := 1e-3

/-- _soft_round_conditional_mean.py:11-37 `soft_round_conditional_mean`. -/
noncomputable def softRoundConditionalMean (x alpha : ℝ) : ℝ :=
  softRoundInverse (x - 0.5) alpha defaultEps + 0.5

end Verif.Functional
