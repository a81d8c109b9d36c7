import Verif.Layers.UniformNoise
import Mathlib.Probability.CDF
import Mathlib.Probability.Moments.Variance

/-!
Model of what `UniformNoise` of `neuralcompression/distributions/_uniform_noise.py` says about the variable that it samples,
for one element of the batch. A base distribution is a probability measure on the real numbers; numbers are real.
-/

namespace Verif.Layers.Noisy

open MeasureTheory ProbabilityTheory Set

/-- `Uniform(-0.5, 0.5)`: `_uniform_noise.py:53`. -/
noncomputable def noise : Measure ℝ := volume.restrict (Ico (-0.5) 0.5)

/-- The law of one element of `rsample`: `_uniform_noise.py:135-139`: a sample of the base distribution plus a sample of the
noise, drawn independently. -/
noncomputable def rsampleLaw (base : Measure ℝ) : Measure ℝ := (base.prod noise).map fun p => p.1 + p.2

/-- `prob` for a base distribution with this law: `_uniform_noise.py:122-133`. -/
noncomputable def probOf (base : Measure ℝ) (v : ℝ) : ℝ := prob (.other (cdf base)) v

/-- `mean`: `_uniform_noise.py:59-61`. -/
noncomputable def mean (base : Measure ℝ) : ℝ := ∫ x, x ∂base

/-- `variance`: `_uniform_noise.py:71-73`. -/
noncomputable def variance (base : Measure ℝ) : ℝ := Var[id; base]

/-- `cdf`: `_uniform_noise.py:75-76`. -/
noncomputable def cdfOf (base : Measure ℝ) (v : ℝ) : ℝ := cdf base v

/-- The law of one element of a sample of `expand(batch_shape)`, which is the expanded base distribution:
`_uniform_noise.py:84-85`. -/
noncomputable def expandLaw (base : Measure ℝ) : Measure ℝ := base

/-- `support`, as a set that has all samples of the base distribution: `_uniform_noise.py:67-69`. -/
def support (baseSupport : Set ℝ) : Set ℝ := baseSupport

/-- `entropy` for a normal base distribution: `_uniform_noise.py:78-79`; torch's `Normal.entropy` is
`0.5 + 0.5 * math.log(2 * math.pi) + torch.log(self.scale)`. -/
noncomputable def normalEntropy (scale : ℝ) : ℝ := 0.5 + 0.5 * Real.log (2 * Real.pi) + Real.log scale

end Verif.Layers.Noisy
