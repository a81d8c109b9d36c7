import Verif.Vct.Report
import Mathlib.Data.Real.Sign
import Mathlib.Analysis.SpecialFunctions.Trigonometric.Basic

/-!
# The backward pass of the bottleneck of the video model

What `backward()` computes for one entry of the latent: from the gradient of the loss with respect to the bits of the entry
to the gradients with respect to the unquantised latent, the predicted mean and the predicted scale. Models
`GsnConditionalLocScaleShift.forward`, `ContinuousIndexedGaussianConditional.forward` and what they call
(`projects/torch_vct/neural/bottlenecks.py`) in training mode and `compute_rate`
(`projects/torch_vct/model_pipeline.py:453-461`), operation by operation in reverse, over the reals. The backward rules are
those of PyTorch, and for `LowerBound` those of compressai.
-/

namespace Verif.Vct

/-- The bits of one entry in training (model_pipeline.py:453-461). -/
noncomputable def trainBits (c : BnCfg) (bound noise x scale mean : ℝ) : ℝ :=
  Real.log (bnForward c bound true noise x scale mean).2 / -Real.log 2

/-- The backward rule of compressai's `LowerBound`: the gradient `g` passes if the input is not below the bound or if
`g` is negative. -/
noncomputable def lowerBoundBack (bound x g : ℝ) : ℝ := open Classical in if bound ≤ x ∨ g < 0 then g else 0

/-- `_standardized_cumulative` (bottlenecks.py:139-143) backwards; the derivative of `erfc` at `y` is
`-2 / sqrt(pi) * exp(-y^2)`. -/
noncomputable def cumulativeBack (z g : ℝ) : ℝ :=
  let const : ℝ := -(1 / √2)
  (g * (1 / 2)) * (-(2 / √Real.pi) * Real.exp (-(const * z) ^ 2)) * const

/-- `torch.maximum(x, 0)` backwards: on a tie half of the gradient goes to each argument. -/
noncomputable def maxZeroBack (x g : ℝ) : ℝ := open Classical in if x = 0 then g / 2 else if x < 0 then 0 else g

/-- `torch.minimum(x, 0)` backwards. -/
noncomputable def minZeroBack (x g : ℝ) : ℝ := open Classical in if x = 0 then g / 2 else if 0 < x then 0 else g

/-- `verysoftplus` (bottlenecks.py:354-359) backwards: `torch.where` gives each branch the gradient where it is chosen
and zero elsewhere. -/
noncomputable def verysoftplusBack (x g : ℝ) : ℝ :=
  open Classical in
  let gPos := if 0 < x then g else 0
  let gNeg := if 0 < x then 0 else g
  maxZeroBack x gPos + minZeroBack x (gNeg * (1 / (1 - min x 0) ^ 2))

/-- `to_scale_idx` in training (bottlenecks.py:40-50) backwards. -/
noncomputable def toScaleIdxBack (c : BnCfg) (s g : ℝ) : ℝ :=
  g * ((c.numScales : ℝ) - 1) / Real.log (c.scalesMax / c.scalesMin + 1) / (s + c.scalesMin)

/-- `from_scale_idx` (bottlenecks.py:55-61) backwards. -/
noncomputable def fromScaleIdxBack (c : BnCfg) (i g : ℝ) : ℝ :=
  g * fromScaleIdx c i * Real.log (c.scalesMax / c.scalesMin + 1) / ((c.numScales : ℝ) - 1)

/-- One entry of `_normalize_indexes` (bottlenecks.py:239-247) backwards: the upper bound `n - 1` first, then the lower
bound zero. -/
noncomputable def normalizeBack (n : ℕ) (i g : ℝ) : ℝ :=
  lowerBoundBack 0 i (-lowerBoundBack (-((n : ℝ) - 1)) (-max i 0) (-g))

/-- `_likelihood` (bottlenecks.py:223-237) backwards: the gradients with respect to the input, the mean and the scale. -/
noncomputable def likelihoodBack (mean scale x g : ℝ) : ℝ × ℝ × ℝ :=
  let values := |x - mean|
  let zu := (1 / 2 - values) / scale
  let zl := (-(1 / 2) - values) / scale
  let gu := cumulativeBack zu g
  let gl := cumulativeBack zl (-g)
  let gValues := -(gu / scale) + -(gl / scale)
  let gScale := -gu * (zu / scale) + -gl * (zl / scale)
  let gDiff := gValues * Real.sign (x - mean)
  (gDiff, -gDiff, gScale)

/-- The gradients of one entry. -/
structure EntryGrad where
  input : ℝ
  scale : ℝ
  mean : ℝ

/-- The backward pass of `forward` in training (bottlenecks.py:373-406 with 249-272 and 361-371), given the gradient `g`
with respect to the bits. `_round_st` (349-352) passes gradients unchanged, so the mean gets that of its index twice,
with opposite signs (370), and that of the centred input (396-397). -/
noncomputable def trainBitsBack (c : BnCfg) (bound noise x scale mean g : ℝ) : EntryGrad :=
  open Classical in
  let idx := getIndexesMode c true mean scale
  let p := normalizeIndexes c idx
  let params := priorParams c p.1 p.2
  let out := x - roundHalfEven mean + noise
  let lik := likelihood params.1 params.2 out
  let gBounded := g / -Real.log 2 / (if 0 < bound then max lik bound else lik)
  let gLik := if 0 < bound then lowerBoundBack bound lik gBounded else gBounded
  let gl := likelihoodBack params.1 params.2 out gLik
  let gMeanIdx := normalizeBack c.numMeans idx.1 (gl.2.1 / c.numMeans) * c.numMeans
  let gScaleIdx := normalizeBack c.numScales idx.2 (fromScaleIdxBack c p.2 gl.2.2)
  { input := gl.1
    scale := verysoftplusBack scale (toScaleIdxBack c (verysoftplus scale) gScaleIdx)
    mean := gMeanIdx + -gMeanIdx + -gl.1 }

end Verif.Vct
