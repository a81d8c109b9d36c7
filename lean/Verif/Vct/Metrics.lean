import Verif.Train.Psnr
import Mathlib.Analysis.SpecialFunctions.Log.Base
import Mathlib.Algebra.BigOperators.Fin

/-!
Model of the losses and metrics of the video project: `/repo/projects/torch_vct/model_lightning.py` and `compute_rate`
(`/repo/projects/torch_vct/model_pipeline.py:453-461`).

Numbers are real numbers.  The networks are left out: likelihoods, bits and reconstructions are inputs.  The elements of
the likelihoods of a frame, of all videos of the batch, are indexed by `ι`, the values of a frame, of all videos of the
batch, by `κ`.
-/

namespace Verif.Vct.Metrics

open scoped BigOperators
open Verif.Train.Psnr

/-- `ZeroDivisionError`. -/
inductive Err | zeroDivision
deriving DecidableEq, Repr

variable {T : ℕ} {ι κ : Type} [Fintype ι] [Fintype κ]

/-- `compute_rate(..., per_frame=True)`: `model_pipeline.py:456-457`. -/
noncomputable def rateFrame (lik : Fin T → ι → ℝ) (t : Fin T) : ℝ := (∑ i, Real.log (lik t i)) / -Real.log 2

/-- `compute_rate(..., per_frame=False)`: `model_pipeline.py:458-459`. -/
noncomputable def rateTotal (lik : Fin T → ι → ℝ) : ℝ := (∑ t, ∑ i, Real.log (lik t i)) / -Real.log 2

/-- `rate_loss` per frame, for `B` videos of height `H` and width `W`: `model_lightning.py:40-45`. -/
noncomputable def rateLossFrame (B H W : ℕ) (lik : Fin T → ι → ℝ) (t : Fin T) : ℝ := rateFrame lik t / (B * H * W)

/-- `rate_loss` of the whole batch: `model_lightning.py:40-45`. -/
noncomputable def rateLoss (B H W : ℕ) (lik : Fin T → ι → ℝ) : ℝ := rateTotal lik / (B * H * W * T)

/-- `mean()` over the frames. -/
noncomputable def mean (f : Fin T → ℝ) : ℝ := (∑ t, f t) / T

/-- The mean squared error of a frame: `model_lightning.py:52-54`. -/
noncomputable def distFrame (x y : Fin T → κ → ℝ) (t : Fin T) : ℝ := mse (x t) (y t)

/-- `_distortion_loss_scaling`: `model_lightning.py:31-35`. -/
noncomputable def scaling (lam : ℝ) : ℝ := lam * 255 ^ 2

/-- `combined_loss_frame`: `model_lightning.py:58-60`. -/
noncomputable def combinedFrame (lam : ℝ) (B H W : ℕ) (lik : Fin T → ι → ℝ) (x y : Fin T → κ → ℝ) (t : Fin T) : ℝ :=
  scaling lam * distFrame x y t + rateLossFrame B H W lik t

/-- The weights of the frames: `model_lightning.py:56-57`. -/
noncomputable def weight (t : Fin T) : ℝ := if t.1 = 0 then 1 else 10

/-- `combined_loss_weighted`, the loss that is minimised: `model_lightning.py:61, 84`. -/
noncomputable def loss (lam : ℝ) (B H W : ℕ) (lik : Fin T → ι → ℝ) (x y : Fin T → κ → ℝ) : ℝ :=
  mean fun t => combinedFrame lam B H W lik x y t * weight t

/-- The rate of the frames of `lik[1:]`. -/
noncomputable def rateTail (lik : Fin T → ι → ℝ) : ℝ :=
  (∑ t, if t.1 = 0 then 0 else ∑ i, Real.log (lik t i)) / -Real.log 2

/-- `a / b` in Python. -/
noncomputable def pyDiv (a : ℝ) (b : ℕ) : Except Err ℝ := if b = 0 then .error .zeroDivision else .ok (a / b)

/-- `cts_rate` and `cts_rate_x1` of the test: `model_lightning.py:143-150`. -/
noncomputable def testRates (H W : ℕ) (lik : Fin T → ι → ℝ) : Except Err (ℝ × ℝ) := do
  let r ← pyDiv (rateTotal lik) (H * W * T)
  let r1 ← pyDiv (rateTail lik) (H * W * (T - 1))
  .ok (r, r1)

/-- `bpp` and `bpp_xfirst` of the test: `model_lightning.py:174-179`. -/
noncomputable def testBits (H W T : ℕ) (bits : List ℝ) : Except Err (ℝ × ℝ) := do
  let r ← pyDiv bits.sum (H * W * T)
  let r1 ← pyDiv bits.tail.sum (H * W * (T - 1))
  .ok (r, r1)

/-! ### 8-bit PSNR -/

/-- `(x * 255 + 0.5).to(torch.uint8)` with the conversion `cast`: `model_lightning.py:68-69, 130, 139, 169`. -/
noncomputable def toByte (cast : ℝ → UInt8) (x : ℝ) : UInt8 := cast (x * 255 + 0.5)

/-- `peak_signal_noise_ratio` of torchmetrics for 8-bit tensors and `data_range=255`.  Versions that do not convert integers
(`wraps = true`; `environment.yml` allows them) compute differences and squares modulo 256. -/
noncomputable def psnr8 (wraps : Bool) (x y : κ → UInt8) : Decibel :=
  if wraps then calcPsnrU8 x y 255 else calcPsnr (fun i => ((x i).toNat : ℝ)) (fun i => ((y i).toNat : ℝ)) 255

/-- `PSNR_int` of a frame in training and validation: `model_lightning.py:67-72, 109-114`. -/
noncomputable def psnrTrain (cast : ℝ → UInt8) (wraps : Bool) (recon video : κ → ℝ) : Decibel :=
  psnr8 wraps (fun i => toByte cast (recon i)) (fun i => toByte cast (video i))

/-- `torch.clamp(x, 0.0, 1.0)`. -/
noncomputable def clamp (x : ℝ) : ℝ := max 0 (min x 1)

/-- The PSNR of the test: `model_lightning.py:130, 137-142, 165-172`. -/
noncomputable def psnrTest (cast : ℝ → UInt8) (wraps : Bool) (recon video : κ → ℝ) : Decibel :=
  psnr8 wraps (fun i => toByte cast (clamp (recon i))) (fun i => toByte cast (video i))

/-- `PSNR` in training and validation, for frames with errors: the mean of the values of the frames
(`dim=(2, 3, 4)`): `model_lightning.py:64-66, 106-108`. -/
noncomputable def psnrFrames (err : Fin T → ℝ) : ℝ := mean fun t => -10 * Real.logb 10 (err t)

end Verif.Vct.Metrics
