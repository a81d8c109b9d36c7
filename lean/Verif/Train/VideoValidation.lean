import Verif.Train.Validation
import Verif.Vct.Metrics

/-!
Model of what validation and test of the video project report: `validation_step` and `test_step` of
`/repo/projects/torch_vct/model_lightning.py`, with Lightning's average over the batches and devices (`Train/Validation.lean`).

A video comes with what the model gives for it; values of the PSNR are finite.  The losses and rates of one batch are also in
`Vct/Metrics.lean` (C97).
-/

namespace Verif.Train.Validation

open scoped BigOperators
open Verif.Vct

/-- What the code raises. -/
inductive VideoErr
  | index
  | assertion
  | zeroDivision
  deriving DecidableEq, Repr

/-- A video of `T` frames in validation: for every frame the likelihoods, the mean squared error, the PSNR and that of 8-bit
values. -/
structure Clip (T : ℕ) where
  lik : Fin T → List ℝ
  err : Fin T → ℝ
  psnr : Fin T → ℝ
  psnrInt : Fin T → ℝ

/-- `compute_rate(..., per_frame=True)`, over the videos of a batch: `model_pipeline.py:456-457`. -/
noncomputable def rateOfFrame {T : ℕ} (batch : List (Clip T)) (t : Fin T) : ℝ :=
  (batch.map fun v => ((v.lik t).map Real.log).sum).sum / -Real.log 2

/-- The mean over the videos and frames, as `peak_signal_noise_ratio` with `dim=(2, 3, 4)` reduces it (torchmetrics). -/
noncomputable def meanBoth {T : ℕ} (f : Clip T → Fin T → ℝ) (batch : List (Clip T)) : ℝ :=
  (batch.map fun v => ∑ t, f v t).sum / (batch.length * T)

/-- `validation_step`: `model_lightning.py:86-117`, `rate_loss` with `B * H * W` pixels: 40-45. -/
noncomputable def evalClips {T : ℕ} (lam : ℝ) (height width : ℕ) (batch : List (Clip T)) : Except VideoErr Logged :=
  let dist := fun t => meanLoss (fun v => v.err t) batch
  let rate := fun t => rateOfFrame batch t / (batch.length * height * width)
  if T = 0 then .error .index
  else
    let combined := fun t => Metrics.scaling lam * dist t + rate t
    .ok [("val_distortion_loss", Metrics.mean dist), ("val_rate_loss", Metrics.mean rate),
      ("val_combined_loss", Metrics.mean combined),
      ("val_combined_loss_weighted", Metrics.mean fun t => combined t * Metrics.weight t),
      ("val_PSNR", meanBoth Clip.psnr batch), ("val_PSNR_int", meanBoth Clip.psnrInt batch)]

/-- A video of the test set: likelihoods and bits of its frames, PSNR of `forward` and of `decompress_video`. -/
structure Film where
  frames : ℕ
  height : ℕ
  width : ℕ
  lik : List (List ℝ)
  bits : List ℝ
  ctsPsnr : ℝ
  psnr : ℝ

/-- `a / b` in Python. -/
noncomputable def divide (a : ℝ) (b : ℕ) : Except VideoErr ℝ := if b = 0 then .error .zeroDivision else .ok (a / b)

/-- `compute_rate` of the likelihoods of frames: `model_pipeline.py:458-459`. -/
noncomputable def rateOf (lik : List (List ℝ)) : ℝ := (lik.map fun l => (l.map Real.log).sum).sum / -Real.log 2

/-- `test_step` for one video: `model_lightning.py:129-185`. -/
noncomputable def evalFilm (v : Film) : Except VideoErr Logged := do
  let ctsRate ← divide (rateOf v.lik) (v.height * v.width * v.frames)
  let ctsRateX1 ← divide (rateOf (v.lik.drop 1)) (v.height * v.width * (v.frames - 1))
  let bpp ← divide v.bits.sum (v.height * v.width * v.frames)
  let bppXfirst ← divide (v.bits.drop 1).sum (v.height * v.width * (v.frames - 1))
  return [("cts_psnr", v.ctsPsnr), ("cts_rate", ctsRate), ("cts_rate_x1", ctsRateX1), ("psnt_int", v.psnr), ("bpp", bpp),
    ("bpp_xfirst", bppXfirst)]

/-- `test_step`: `model_lightning.py:119-185`; only batches of one video: 125-126. -/
noncomputable def evalFilms : List Film → Except VideoErr Logged
  | [v] => evalFilm v
  | _ => .error .assertion

end Verif.Train.Validation
