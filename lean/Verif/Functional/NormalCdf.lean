import Verif.NormalDeriv
import Mathlib.Analysis.SpecialFunctions.Log.Basic

/-!
Model of the normal distribution helpers:
`neuralcompression/functional/_ndtr.py`, `_log_ndtr.py`, `_log_cdf.py`, `_survival_function.py`
and `_log_survival_function.py`.

Tensors are modelled elementwise, by exact real numbers: rounding and overflow are not modelled here. The cast of
`ndtr` to single precision, which matters for double precision tensors, is modelled in `SinglePrecision.lean`. `torch.log` of zero (minus infinity) and of a negative number (nan) is
Lean's `Real.log`, so theorems about logarithms are stated for positive arguments.
-/

namespace Verif.Functional

open Real

/-- `torch.log1p`. -/
noncomputable def log1p (x : ℝ) : ℝ := log (1 + x)

/-- `ndtr`: `neuralcompression/functional/_ndtr.py:12-34`. -/
noncomputable def ndtr (x : ℝ) : ℝ :=
  let x := x * √0.5
  let y := 0.5 * erfc |x|
  if |x| < √0.5 then 0.5 + 0.5 * erf x
  else if x > 0 then 1 - y
  else y

/-- State of the loop of `_log_ndtr_asymptotic_series`: `_log_ndtr.py:16-19`. -/
structure Series where
  t2 : ℝ
  evenPower : ℝ
  doubleFac : ℝ
  multiplier : ℝ

/-- One iteration with loop variable `n`: `_log_ndtr.py:22-25`. -/
noncomputable def Series.step (x : ℝ) (s : Series) (n : ℕ) : Series where
  t2 := s.t2 + s.multiplier * s.doubleFac / s.evenPower
  evenPower := s.evenPower * x ^ 2
  doubleFac := s.doubleFac * (2 * n - 1)
  multiplier := s.multiplier * (-1)

/-- `_log_ndtr_asymptotic_series`: `_log_ndtr.py:14-27` (`range(1, series_order + 1)`). -/
noncomputable def logNdtrSeries (x : ℝ) (order : ℕ := 3) : ℝ :=
  let t1 := -0.5 * (log (2 * π) + x ^ 2) - log (-x)
  let s := (List.range' 1 order).foldl (Series.step x) ⟨0, x ^ 2, 1, -1⟩
  t1 + log1p s.t2

/-- Tensor types, as far as `log_ndtr` distinguishes them. -/
inductive Dtype | float32 | float64 | other
  deriving DecidableEq

/-- The exceptions that can occur. -/
inductive CdfError | type
  deriving DecidableEq

/-- The thresholds `m, n`: `_log_ndtr.py:40-47`. -/
def thresholds : Dtype → Except CdfError (ℝ × ℝ)
  | .float32 => .ok (-10, 5)
  | .float64 => .ok (-20, 8)
  | .other => .error .type

/-- The elementwise function selected by the thresholds: `_log_ndtr.py:49-57`. -/
noncomputable def logNdtrWith (m n x : ℝ) : ℝ :=
  if x > n then log1p (-ndtr (-x))
  else if x ≥ m then log (ndtr x)
  else logNdtrSeries x

/-- `log_ndtr`: `_log_ndtr.py:30-57`. -/
noncomputable def logNdtr (d : Dtype) (x : ℝ) : Except CdfError ℝ :=
  (thresholds d).map fun mn => logNdtrWith mn.1 mn.2 x

/-- `torch.distributions`: `Normal` and `Uniform` are the classes the code asks for with `isinstance`,
every other continuous distribution is known by its `cdf`. Simplification: the distributions are constructed with
`validate_args=False`. With torch's default, `cdf` raises `ValueError` for arguments outside of the support, which
only concerns the uniform and other distributions of bounded support. -/
inductive Dist
  | normal (loc scale : ℝ)
  | uniform (low high : ℝ)
  | other (cdf : ℝ → ℝ)

/-- `Distribution.cdf` of torch (library): `Normal.cdf` and `Uniform.cdf` as documented. -/
noncomputable def Dist.cdf : Dist → ℝ → ℝ
  | .normal loc scale, x => 0.5 * (1 + erf ((x - loc) * scale⁻¹ / √2))
  | .uniform low high, x => max 0 (min 1 ((x - low) / (high - low)))
  | .other cdf, x => cdf x

/-- `log_cdf`: `neuralcompression/functional/_log_cdf.py:13-36`. -/
noncomputable def logCdf (d : Dtype) (x : ℝ) : Dist → Except CdfError ℝ
  | .normal loc scale => logNdtr d ((x - loc) / scale)
  | .uniform _ _ => .ok (log x)
  | .other cdf => .ok (log (cdf x))

/-- `survival_function`: `neuralcompression/functional/_survival_function.py:13-34`. -/
noncomputable def survivalFunction (x : ℝ) : Dist → ℝ
  | .normal loc scale => ndtr (-((x - loc) / scale))
  | .uniform low high => 1 - (Dist.uniform low high).cdf x
  | .other cdf => 1 - cdf x

/-- `log_survival_function`: `neuralcompression/functional/_log_survival_function.py:13-33`. -/
noncomputable def logSurvivalFunction (d : Dtype) (x : ℝ) : Dist → Except CdfError ℝ
  | .normal loc scale => logNdtr d (-((x - loc) / scale))
  | .uniform low high => .ok (log1p ((Dist.uniform low high).cdf (-x)))
  | .other cdf => .ok (log1p (cdf (-x)))

end Verif.Functional
