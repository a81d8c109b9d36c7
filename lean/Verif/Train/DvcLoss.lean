import Verif.Models.Dvc
import Verif.Train.Gop
import Mathlib.Analysis.SpecialFunctions.Log.Basic
import Mathlib.Algebra.BigOperators.Field
import Mathlib.Data.Fintype.BigOperators

/-!
Model of the losses of the training stages of the deep video compression project: `compute_batch_loss` of
`/repo/projects/deep_video_compression/_utils.py`, the loss functions of `dvc_module.py:98-114`, and the flow pyramid of
`/repo/neuralcompression/models/deep_video_compression.py:558-586`.

Simplifications: networks are arbitrary functions and floats are real numbers; an image is a function of its entries
`ι` (batch, channel, row, column); a bottleneck of `compressai` is the function from the latent to its noisy (training)
or quantised (evaluation) version, and the probabilities are a function of that version.
-/

namespace Verif.Train.DvcLoss

open Verif.Models.Dvc Verif.Train.Gop Finset

/-- `torch.nn.MSELoss()(a, b)`. -/
noncomputable def mse {ι : Type} [Fintype ι] (a b : ι → ℝ) : ℝ := (∑ i, (a i - b i) ^ 2) / Fintype.card ι

/-- `distortion_fn`: `dvc_module.py:102-104`. -/
noncomputable def distortionFn {ι : Type} [Fintype ι] (lam : ℝ) (a b : ι → ℝ) : ℝ := lam * mse a b

/-- `entropy_fn`: `dvc_module.py:106-110`; `information_content` with `reduction="sum"` in bits
(`neuralcompression/functional/_information_content.py:43-50`). -/
noncomputable def entropyFn (probabilities : List ℝ) (reductionFactor : ℕ) : ℝ :=
  ((-1 / Real.log 2) * (probabilities.map Real.log).sum) / reductionFactor

/-! ### Flow pyramid -/

/-- The loop of `calculate_flow_with_image_pairs`: `deep_video_compression.py:564-586`. The levels come from coarse to
fine with their networks; images of all levels are in `Img`, flows of all levels in `Flow`. -/
def pyramidLoop {Img Flow : Type} (resize : Flow → Img → Flow) (add : Flow → Flow → Flow) (warp : Img → Flow → Img) :
    List ((Img → Img → Flow → Flow) × Img × Img) → Flow → List (Img × Img) → Flow × List (Img × Img)
  | [], flow, pairs => (flow, pairs)
  | (level, image1, image2) :: rest, flow, pairs =>
    let flow := resize flow image1
    let flow := add flow (level (warp image1 flow) image2 flow)
    pyramidLoop resize add warp rest flow (pairs ++ [(warp image1 flow, image2)])

/-- `_decompose_images_to_pyramids` for one image, from fine to coarse: `deep_video_compression.py:524-534`. -/
def decompose {Img : Type} (pool : Img → Img) : ℕ → Img → List Img
  | 0, image => [image]
  | k + 1, image => image :: decompose pool k (pool image)

/-- `calculate_flow_with_image_pairs`: `deep_video_compression.py:558-586` (the images have the same shape). The networks
are listed in the order of `model_levels`, the first works on the coarsest images. -/
def flowWithPairs {Img Flow : Type} (resize : Flow → Img → Flow) (add : Flow → Flow → Flow) (warp : Img → Flow → Img)
    (zeros : Img → Flow) (pool : Img → Img) (levels : List (Img → Img → Flow → Flow)) (image1 image2 : Img) :
    Flow × List (Img × Img) :=
  let images1 := decompose pool (levels.length - 1) image1
  let images2 := decompose pool (levels.length - 1) image2
  pyramidLoop resize add warp (levels.zip (images1.reverse.zip images2.reverse))
    (zeros (images1.getLast?.getD image1)) []

/-! ### Stages -/

/-- What `compute_batch_loss` returns, without the copies of its arguments: loss values, flow and estimate. -/
structure Result (Img Flow : Type) where
  loss : LossValues
  flow : Flow
  est : Img

/-- `DvcStage1.compute_batch_loss`: `_utils.py:82-103`; `mseOf` is the mean squared error of images of any level.
`none`: there are no levels, and stacking no losses raises. -/
noncomputable def stage1 {Img Flow : Type} (lam : ℝ) (mseOf : Img → Img → ℝ) (warp : Img → Flow → Img)
    (flowPairs : Img → Img → Flow × List (Img × Img)) (image1 image2 : Img) : Option (Result Img Flow) :=
  let (flow, outputs) := flowPairs image1 image2
  let frameLosses := outputs.map fun output => lam * mseOf output.2 output.1
  if frameLosses = [] then none
  else
    let loss := frameLosses.sum / frameLosses.length
    let est := warp image1 flow
    some ⟨⟨loss, none, none⟩, flow, est⟩

variable {ι Flow Lat Str : Type}

/-- What the bottlenecks do with a latent (noise in training, quantisation in evaluation) and the probabilities they
report for the result. -/
structure Mode (Lat : Type) where
  motion : Lat → Lat
  residual : Lat → Lat
  motionProb : Lat → List ℝ
  residualProb : Lat → List ℝ

/-- `DvcStage2.forward`: `_utils.py:127-135`: flow, estimate and probabilities. -/
def stage2Forward (m : Nets ι Flow Lat Str) (b : Mode Lat) (image1 image2 : ι → ℝ) : Flow × (ι → ℝ) × List ℝ :=
  let flow := m.motionEstimator image1 image2
  let (latent, sizes) := m.motionEncoder flow
  let latent := b.motion latent
  let probabilities := b.motionProb latent
  let flow := m.motionDecoder latent sizes
  let est := m.warp image1 flow
  (flow, est, probabilities)

/-- `DvcStage2.compute_batch_loss`: `_utils.py:137-162`. -/
noncomputable def stage2 [Fintype ι] (lam : ℝ) (m : Nets ι Flow Lat Str) (b : Mode Lat) (numPixels : ℕ)
    (image1 image2 : ι → ℝ) : Result (ι → ℝ) Flow :=
  let (flow, est, probabilities) := stage2Forward m b image1 image2
  ⟨⟨distortionFn lam image2 est, some (entropyFn probabilities numPixels), none⟩, flow, est⟩

/-- `DvcStage3.forward`: `_utils.py:196-206`. -/
def stage3Forward (m : Nets ι Flow Lat Str) (b : Mode Lat) (image1 image2 : ι → ℝ) : Flow × (ι → ℝ) × List ℝ :=
  let flow := m.motionEstimator image1 image2
  let (latent, sizes) := m.motionEncoder flow
  let latent := b.motion latent
  let probabilities := b.motionProb latent
  let flow := m.motionDecoder latent sizes
  let est := m.warp image1 flow
  let est := m.motionCompensation image1 est flow
  (flow, est, probabilities)

/-- `DvcStage3.compute_batch_loss`: `_utils.py:208-233`. -/
noncomputable def stage3 [Fintype ι] (lam : ℝ) (m : Nets ι Flow Lat Str) (b : Mode Lat) (numPixels : ℕ)
    (image1 image2 : ι → ℝ) : Result (ι → ℝ) Flow :=
  let (flow, est, probabilities) := stage3Forward m b image1 image2
  ⟨⟨distortionFn lam image2 est, some (entropyFn probabilities numPixels), none⟩, flow, est⟩

/-- `DVC.forward` with all its outputs: `deep_video_compression.py:290-314`: flow, estimate, residual, probabilities of
flow and residual. -/
def dvcForward (m : Nets ι Flow Lat Str) (b : Mode Lat) (image1 image2 : ι → ℝ) :
    Flow × (ι → ℝ) × (ι → ℝ) × List ℝ × List ℝ :=
  let flow := m.motionEstimator image1 image2
  let (latent, sizes) := m.motionEncoder flow
  let latent := b.motion latent
  let flowProbabilities := b.motionProb latent
  let flow := m.motionDecoder latent sizes
  let est := m.warp image1 flow
  let est := m.motionCompensation image1 est flow
  let residual := fun i => image2 i - est i
  let (latent, sizes) := m.residualEncoder residual
  let latent := b.residual latent
  let residProbabilities := b.residualProb latent
  let residual := m.residualDecoder latent sizes
  (flow, fun i => est i + residual i, residual, flowProbabilities, residProbabilities)

/-- `DvcStage4and5.compute_batch_loss`: `_utils.py:262-294`. -/
noncomputable def stage45 [Fintype ι] (lam : ℝ) (m : Nets ι Flow Lat Str) (b : Mode Lat) (numPixels : ℕ)
    (image1 image2 : ι → ℝ) : Result (ι → ℝ) Flow :=
  let (flow, est, _, flowProbabilities, residProbabilities) := dvcForward m b image1 image2
  ⟨⟨distortionFn lam image2 est, some (entropyFn flowProbabilities numPixels),
    some (entropyFn residProbabilities numPixels)⟩, flow, est⟩

/-- The module of stages 4 and 5 as the steps of `dvc_module.py` use it, with bottlenecks in evaluation mode (Lightning's
validation) and an I-frame model. -/
noncomputable def gopNet [Fintype ι] (lam : ℝ) (b : Mode Lat) (numPixels : ℕ) (iframe : (ι → ℝ) → (ι → ℝ) × List ℝ) :
    Gop.Net (Nets ι Flow Lat Str) (ι → ℝ) where
  iframe := iframe
  pframe m image1 image2 :=
    let r := stage45 lam m b numPixels image1 image2
    (r.loss, r.est)
  update m _ _ := m

end Verif.Train.DvcLoss
