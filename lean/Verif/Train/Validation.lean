import Verif.Train.Rate

/-!
Model of the losses and rates that a validation of the image project reports: `eval_step` of
`/repo/projects/illm/target_compression_module.py` and `/repo/projects/illm/gan_compression_module.py`, with Lightning's (2.0)
average over the batches and devices.

Real numbers stand for floats.  An image comes with the likelihoods that the model gives in evaluation, its distortion and its
generator loss; the losses of a batch are means over images of the same size: `F.mse_loss`, LPIPS, cross-entropies of maps of logits.
-/

namespace Verif.Train.Validation

open Verif.Train.Rate

/-- An image of the validation set, as the model sees it. -/
structure Item where
  lik : Likelihoods
  distortion : ℝ
  generator : ℝ

/-- A loss with mean reduction: `target_compression_module.py:206`, `gan_compression_module.py:232-237`. -/
noncomputable def meanLoss {α : Type} (f : α → ℝ) (batch : List α) : ℝ := (batch.map f).sum / batch.length

/-- What `log_dict` gets. -/
abbrev Logged := List (String × ℝ)

/-- The entries of the rate: `target_compression_module.py:221-229`, `gan_compression_module.py:260-269`. -/
def rateEntries (out : Output) : Logged :=
  [("val/rate_loss", out.rateLoss), ("val/total_bpp", out.totalBpp), ("val/quantized_total_bpp", out.quantizedTotalBpp),
    ("val/hyper_bpp", out.hyperBpp), ("val/quantized_hyper_bpp", out.quantizedHyperBpp), ("val/latent_bpp", out.latentBpp),
    ("val/quantized_latent_bpp", out.quantizedLatentBpp), ("val/target", out.target), ("val/lam2", out.lam2)]

/-- `TargetRateCompressionModule.eval_step` with the prefix `val`, without the quality metrics of C98:
`target_compression_module.py:198-235`. -/
noncomputable def evalTarget (c : Config) (globalStep : ℤ) (height width : ℕ) (distortionLam : ℝ) (batch : List Item) :
    Except Err Logged := do
  let distortionLoss := meanLoss (·.distortion) batch
  let out ← rateLoss c globalStep height width fun b : Fin batch.length => batch[b].lik
  let loss := distortionLam * distortionLoss + out.rateLoss
  return [("val/total_loss", loss), ("val/distortion_loss", distortionLoss)] ++ rateEntries out

/-- `GANCompressionModule.eval_step` likewise: `gan_compression_module.py:220-275`. -/
noncomputable def evalGan (c : Config) (globalStep : ℤ) (height width : ℕ) (distortionLam generatorWeight : ℝ)
    (batch : List Item) : Except Err Logged := do
  let distortionLoss := meanLoss (·.distortion) batch
  let gLoss := meanLoss (·.generator) batch
  let out ← rateLoss c globalStep height width fun b : Fin batch.length => batch[b].lik
  let loss := distortionLam * distortionLoss + out.rateLoss + generatorWeight * gLoss
  return [("val/total_model_loss", loss), ("val/distortion_loss", distortionLoss), ("val/generator_loss", gLoss)]
    ++ rateEntries out

/-- Lightning's accumulator of a logged number: the sum of the values times the batch sizes, and the sum of the sizes. -/
structure Acc where
  value : ℝ
  size : ℝ

/-- `_ResultMetric.update` for means (Lightning): the batch size is that of the batch. -/
def Acc.update (a : Acc) (v : ℝ) (size : ℕ) : Acc := ⟨a.value + v * size, a.size + size⟩

/-- The accumulators by key. -/
abbrev Accs := String → Acc

/-- `log_dict` (Lightning). -/
def Accs.log (a : Accs) (size : ℕ) (l : Logged) : Accs :=
  l.foldl (fun a e key => if key = e.1 then (a key).update e.2 size else a key) a

/-- The validation loop on one device. -/
def loop {α ε : Type} (eval : List α → Except ε Logged) : List (List α) → Accs → Except ε Accs
  | [], a => .ok a
  | b :: bs, a => do
    let l ← eval b
    loop eval bs (a.log b.length l)

/-- A validation on several devices: with `sync_dist=True` sums and sizes are added over the devices before they are divided
(Lightning): `target_compression_module.py:231`, `gan_compression_module.py:271`. -/
noncomputable def validate {α ε : Type} (eval : List α → Except ε Logged) (devices : List (List (List α))) :
    Except ε (String → ℝ) := do
  let accs ← devices.mapM fun bs => loop eval bs fun _ => ⟨0, 0⟩
  return fun key => (accs.map fun a => (a key).value).sum / (accs.map fun a => (a key).size).sum

end Verif.Train.Validation
