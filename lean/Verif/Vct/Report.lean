import Verif.Vct.Bottleneck

/-!
# The forward pass of the bottleneck of the video model

Models `GsnConditionalLocScaleShift.forward` and `ContinuousIndexedGaussianConditional.forward`
(`projects/torch_vct/neural/bottlenecks.py`) entry by entry, over the reals.  `quantize` and the lower bound of the
likelihood are those of compressai's `EntropyModel`: "noise" adds uniform noise from `[-1/2, 1/2)`, "dequantize" without
means rounds, and the bound is `likelihood_bound` (1e-9 unless the caller changes it; 0 switches it off).
-/

namespace Verif.Vct

/-- `Scaler.to_scale_idx` with its flag (bottlenecks.py:35-53): rounded unless training. -/
noncomputable def scaleIdx (c : BnCfg) (training : Bool) (s : ℝ) : ℝ :=
  if training then toScaleIdx c s else roundHalfEven (toScaleIdx c s)

/-- `_get_indexes` with its flag (bottlenecks.py:361-371). -/
noncomputable def getIndexesMode (c : BnCfg) (training : Bool) (mean scale : ℝ) : ℝ × ℝ :=
  ((mean - roundHalfEven mean + 1 / 2) * c.numMeans, scaleIdx c training (verysoftplus scale))

/-- `EntropyModel.quantize` of compressai in the two modes used (bottlenecks.py:267). -/
noncomputable def quantizeMode (training : Bool) (noise x : ℝ) : ℝ :=
  if training then x + noise else roundHalfEven x

/-- `ContinuousIndexedGaussianConditional.forward` (bottlenecks.py:249-272): value and likelihood. -/
noncomputable def gaussianForward (c : BnCfg) (bound : ℝ) (training : Bool) (noise x : ℝ) (idx : ℝ × ℝ) : ℝ × ℝ :=
  let p := normalizeIndexes c idx
  let out := quantizeMode training noise x
  let params := priorParams c p.1 p.2
  let lik := likelihood params.1 params.2 out
  open Classical in (out, if 0 < bound then max lik bound else lik)

/-- `GsnConditionalLocScaleShift.forward` (bottlenecks.py:373-406); `_round_st` (349-352) is `round` in value. -/
noncomputable def bnForward (c : BnCfg) (bound : ℝ) (training : Bool) (noise x scale mean : ℝ) : ℝ × ℝ :=
  let idx := getIndexesMode c training mean scale
  let roundMean : ℝ := roundHalfEven mean
  let centred := x - roundMean
  let r := gaussianForward c bound training noise centred idx
  let q : ℝ := if training then roundHalfEven centred else r.1
  (q + roundMean, r.2)

end Verif.Vct
