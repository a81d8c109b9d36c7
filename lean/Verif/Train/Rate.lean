import Mathlib.Analysis.SpecialFunctions.Log.Basic
import Mathlib.Data.Fintype.BigOperators

/-!
Model of the rate targeting: `/repo/neuralcompression/loss_fn/_target_rate_config.py` and
`/repo/projects/illm/target_compression_module.py:74-137`.

Simplifications: floats are real numbers; gradients are not modelled.
-/

namespace Verif.Train.Rate

open scoped BigOperators

/-- What the code raises. -/
inductive Err where
  | value
  | index
  deriving DecidableEq, Repr

/-- `TargetRateConfig`: `_target_rate_config.py:56-61`. -/
structure Config where
  targetBpp : ℝ
  targetFactors : List ℝ
  targetSteps : List ℤ
  lamLevels : ℝ × ℝ
  lam2Factors : List ℝ
  lam2Steps : List ℤ

/-- `TargetRateConfig.__init__`: `_target_rate_config.py:50-61`. -/
def Config.init (c : Config) : Except Err Config :=
  if c.targetSteps.length + 1 ≠ c.targetFactors.length ∨ c.lam2Steps.length + 1 ≠ c.lam2Factors.length then .error .value
  else .ok c

/-- The loop of `_get_scheduled_rate_param`: `target_compression_module.py:77-80`. -/
def scheduledLoop (globalStep : ℤ) (base : ℝ) : List (ℝ × ℤ) → Option ℝ
  | [] => none
  | (factor, step) :: rest =>
    if globalStep < step then some (base * factor) else scheduledLoop globalStep base rest

/-- `_get_scheduled_rate_param`: `target_compression_module.py:74-82`. -/
def scheduled (globalStep : ℤ) (base : ℝ) (factors : List ℝ) (steps : List ℤ) : Except Err ℝ :=
  match scheduledLoop globalStep base (factors.zip steps) with
  | some param => .ok param
  | none => match factors.getLast? with
    | some factor => .ok (base * factor)
    | none => .error .index

/-- `_calc_bits_per_batch` for one image: `target_compression_module.py:84-87`. -/
noncomputable def bits (likelihoods : List ℝ) : ℝ := (likelihoods.map Real.log).sum / -Real.log 2

/-- The likelihoods of the latents of one image. -/
structure Likelihoods where
  latent : List ℝ
  quantizedLatent : List ℝ
  hyper : List ℝ
  quantizedHyper : List ℝ

/-- The mean over the batch. -/
noncomputable def mean {B : ℕ} (f : Fin B → ℝ) : ℝ := (∑ b, f b) / B

/-- `RateLossOutput`: `target_compression_module.py:22-31`. -/
structure Output where
  rateLoss : ℝ
  totalBpp : ℝ
  quantizedTotalBpp : ℝ
  latentBpp : ℝ
  quantizedLatentBpp : ℝ
  hyperBpp : ℝ
  quantizedHyperBpp : ℝ
  target : ℝ
  lam2 : ℝ

/-- `rate_loss`: `target_compression_module.py:89-137`. -/
noncomputable def rateLoss {B : ℕ} (c : Config) (globalStep : ℤ) (height width : ℕ) (p : Fin B → Likelihoods) :
    Except Err Output := do
  let numPixels : ℝ := (height * width : ℕ)
  let latentBpp := fun b => bits (p b).latent / numPixels
  let quantizedLatentBpp := fun b => bits (p b).quantizedLatent / numPixels
  let hyperBpp := fun b => bits (p b).hyper / numPixels
  let quantizedHyperBpp := fun b => bits (p b).quantizedHyper / numPixels
  let totalBpp := fun b => latentBpp b + hyperBpp b
  let quantizedTotalBpp := fun b => quantizedLatentBpp b + quantizedHyperBpp b
  let target ← scheduled globalStep c.targetBpp c.targetFactors c.targetSteps
  let lam2 ← scheduled globalStep c.lamLevels.2 c.lam2Factors c.lam2Steps
  let lams := fun b => open Classical in if quantizedTotalBpp b > target then lam2 else c.lamLevels.1
  return {
    rateLoss := mean fun b => lams b * totalBpp b
    totalBpp := mean totalBpp
    quantizedTotalBpp := mean quantizedTotalBpp
    latentBpp := mean latentBpp
    quantizedLatentBpp := mean quantizedLatentBpp
    hyperBpp := mean hyperBpp
    quantizedHyperBpp := mean quantizedHyperBpp
    target := target
    lam2 := lam2 }

end Verif.Train.Rate
