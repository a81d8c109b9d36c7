import Verif.Functional.NormalCdf
import Verif.Functional.Scalar
import Verif.Layers.UniformNoise
import Mathlib.Data.Int.Log

/-!
Model of the normal distribution helpers on double precision tensors, with the rounding to single precision
that `ndtr` starts with: `neuralcompression/functional/_ndtr.py` and `_log_ndtr.py`, and of the logarithm of a
probability in `neuralcompression/distributions/_uniform_noise.py` computed from them.

The numbers of `ndtr` are single precision numbers: the results of its operations are rounded. Infinite single
precision numbers do not occur: the arguments of interest are small. Double precision numbers are real numbers.
The error functions of torch are single precision functions of which only their accuracy is known: they are
parameters.
-/

namespace Verif.Functional

open Real

/-- The distance between neighbouring single precision numbers at `x`: 24 significant bits, and not less than
the smallest positive number (IEEE 754). -/
noncomputable def ulp32 (x : ℝ) : ℝ :=
  if x = 0 then 2 ^ (-149 : ℤ) else 2 ^ (max (Int.log 2 |x|) (-126) - 23 : ℤ)

/-- Rounding to the nearest single precision number, ties to even: what `x.to(torch.float)` and every operation
on single precision tensors do (`_ndtr.py:22`), up to overflow. -/
noncomputable def f32 (x : ℝ) : ℝ := roundHalfEven (x / ulp32 x) * ulp32 x

/-- `ndtr` of a tensor of any type: `_ndtr.py:12-34`, with the rounding of `_ndtr.py:22`; `erf32` and `erfc32` are torch's
functions on single precision tensors. -/
noncomputable def ndtrSingle (erf32 erfc32 : ℝ → ℝ) (x : ℝ) : ℝ :=
  let x := f32 (f32 x * f32 √0.5)
  let y := f32 (0.5 * erfc32 |x|)
  if |x| < f32 √0.5 then f32 (0.5 + f32 (0.5 * erf32 x))
  else if x > 0 then f32 (1 - y)
  else y

/-- `torch.log` of a single precision number. -/
noncomputable def logSingle (x : ℝ) : Layers.F :=
  if 0 < x then .val (f32 (log x)) else if x = 0 then .negInf else .nan

/-- `torch.log1p` of a single precision number. -/
noncomputable def log1pSingle (x : ℝ) : Layers.F :=
  if -1 < x then .val (f32 (log (1 + x))) else if x = -1 then .negInf else .nan

/-- `log_ndtr` of a double precision tensor: `_log_ndtr.py:43-57`. -/
noncomputable def logNdtrDouble (erf32 erfc32 : ℝ → ℝ) (x : ℝ) : Layers.F :=
  if x > 8 then log1pSingle (-ndtrSingle erf32 erfc32 (-x))
  else if x ≥ -20 then logSingle (ndtrSingle erf32 erfc32 x)
  else .val (logNdtrSeries x)

open Classical in
/-- `UniformNoise.log_prob` from the four logarithms: `_uniform_noise.py:100-114`. -/
noncomputable def logProbFrom (sfPos sfNeg cdfPos cdfNeg : Layers.F) : Layers.F :=
  let a := if sfPos.Lt cdfPos then sfNeg else cdfPos
  let b := if sfPos.Lt cdfPos then sfPos else cdfNeg
  (Layers.F.log1mexp (b.sub a)).add a

/-- `UniformNoise.log_prob` of a normal distribution and a double precision value: `_uniform_noise.py:93-114`,
with `_log_cdf.py:28-31` and `_log_survival_function.py:28-31`. -/
noncomputable def logProbDouble (erf32 erfc32 : ℝ → ℝ) (loc scale v : ℝ) : Layers.F :=
  let logCdf := fun x => logNdtrDouble erf32 erfc32 ((x - loc) / scale)
  let logSf := fun x => logNdtrDouble erf32 erfc32 (-((x - loc) / scale))
  logProbFrom (logSf (v + 0.5)) (logSf (v - 0.5)) (logCdf (v + 0.5)) (logCdf (v - 0.5))

end Verif.Functional
