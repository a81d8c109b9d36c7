import Mathlib.Analysis.SpecialFunctions.Trigonometric.Basic

/-!
# Learning-rate schedules

Models `projects/torch_vct/utils/schedulers.py`, `neuralcompression/optim/_ramp_cosine.py` and
`neuralcompression/optim/_ramp_const_cosine.py`, over the real numbers (the code uses floats).  `none` is a
`ZeroDivisionError`.
-/

namespace Verif.Train

open Real

/-- schedulers.py:42-55 and 125-138: the cosine part; `e` is `last_epoch`, `T` is `T_max`, `r` is `ramp_len`. -/
noncomputable def cosinePart (T r e : ℕ) (eta base : ℝ) : Option ℝ :=
  let den : ℤ := (T : ℤ) - r - 1
  if den = 0 then none
  else some (eta + (base - eta) * (1 + cos (π * ((e : ℝ) - r) / den)) / 2)

/-- schedulers.py:56-59 and 90-93: the linear part. -/
noncomputable def linearPart (r e : ℕ) (base : ℝ) : Option ℝ :=
  if r = 0 then none else some (base * (1 + e) / r)

/-- schedulers.py:41-60 `LinearRampCosineLR._get_closed_form_lr`, for one parameter group. -/
noncomputable def linearRampCosine (T r e : ℕ) (eta base : ℝ) : Option ℝ := do
  let c ← cosinePart T r e eta base
  let l ← linearPart r e base
  return min c l

/-- schedulers.py:90-95 `LinearRampLinearLR._get_closed_form_lr` (the linear part is computed first). -/
noncomputable def linearRampLinear (r e : ℕ) (base : ℝ) : Option ℝ := do
  let l ← linearPart r e base
  return if e < r then l else base

/-- schedulers.py:128-143 `LinearWarmUpCosineLR._get_closed_form_lr`. -/
noncomputable def linearWarmUpCosine (T r e : ℕ) (eta base : ℝ) : Option ℝ := do
  let c ← cosinePart T r e eta base
  return if e < r then base else c

/-- _ramp_const_cosine.py:40-48 `step_fn`: the factor the base rate is multiplied with. -/
noncomputable def rampConstCosine (maxSteps ramp cosSteps : ℕ) (minVal : ℝ) (step : ℕ) : Option ℝ :=
  let cosineStep : ℤ := (step : ℤ) - ((maxSteps : ℤ) - cosSteps)
  if step < ramp then some (max (min ((step : ℝ) / ramp) 1) minVal)
  else if 0 < cosineStep then
    if cosSteps = 0 then none
    else some (max (cos ((cosineStep : ℝ) / cosSteps * π / 2)) minVal)
  else some 1

/-- _ramp_cosine.py:37-42 `step_fn`. -/
noncomputable def rampCosine (maxSteps ramp : ℕ) (minVal : ℝ) (step : ℕ) : Option ℝ :=
  if step < ramp then some (max (min ((step : ℝ) / ramp) 1) minVal)
  else if maxSteps = 0 then none
  else some (max (cos (((step : ℝ) - ramp) / maxSteps * π / 2)) minVal)

end Verif.Train
