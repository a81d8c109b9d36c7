import Verif.Train.Autograd

/-!
Model of the gradients of the deep video compression project: the losses of the training stages
(`/repo/projects/deep_video_compression/_utils.py`), the forward pass of the whole model
(`/repo/neuralcompression/models/deep_video_compression.py:271-314`) and the loop over the P-frames
(`/repo/projects/deep_video_compression/dvc_module.py:236-257`).

Simplifications: networks are arbitrary operations with a derivative; the noise that the bottlenecks add in training is
an input; the quantiles are left out (they have their own loss and optimiser and do not take part in training mode).
-/

namespace Verif.Train.DvcGrad

open Autograd

/-- The networks with parameters: `deep_video_compression.py:104-169`. -/
inductive Part
  | estimator | motionEncoder | motionBottleneck | motionDecoder | compensation
  | residualEncoder | residualBottleneck | residualDecoder
  deriving DecidableEq

instance : Fintype Part where
  elems := {.estimator, .motionEncoder, .motionBottleneck, .motionDecoder, .compensation, .residualEncoder,
    .residualBottleneck, .residualDecoder}
  complete := by intro p; cases p <;> decide

/-- The parameters of all networks. -/
abbrev Params (W : Type) := Part → W

variable {W I Fl La P : Type} [NormedAddCommGroup W] [NormedSpace ℝ W] [NormedAddCommGroup I] [NormedSpace ℝ I]
  [NormedAddCommGroup Fl] [NormedSpace ℝ Fl] [NormedAddCommGroup La] [NormedSpace ℝ La]
  [NormedAddCommGroup P] [NormedSpace ℝ P]

/-- The networks and losses.  `levels` are the pairs of images of `calculate_flow_with_image_pairs`, which stage 1
compares, in the order in which the distortion gets them. -/
structure Nets (W I Fl La P : Type) [NormedAddCommGroup W] [NormedSpace ℝ W] [NormedAddCommGroup I] [NormedSpace ℝ I]
    [NormedAddCommGroup Fl] [NormedSpace ℝ Fl] [NormedAddCommGroup La] [NormedSpace ℝ La]
    [NormedAddCommGroup P] [NormedSpace ℝ P] where
  estimate : Op (W × I × I) Fl
  levels : List (Op (W × I × I) (I × I))
  encodeFlow : Op (W × Fl) La
  flowLik : Op (W × La) P
  decodeFlow : Op (W × La) Fl
  warp : Op (I × Fl) I
  compensate : Op (W × I × I × Fl) I
  encodeResidual : Op (W × I) La
  residualLik : Op (W × La) P
  decodeResidual : Op (W × La) I
  /-- `distortion_fn` of `dvc_module.py:107-108`, with its weight. -/
  distortion : Op (I × I) ℝ
  /-- `entropy_fn` of `dvc_module.py:110-114` for the number of pixels of the frames. -/
  entropy : Op P ℝ

/-- The training stages: `dvc_module.py:26-32`. -/
inductive Stage
  | one | two | three | whole
  deriving DecidableEq

/-- `LossValues` with the detached `image2_est` of `OutputTensors`: `_utils.py:20-30`. -/
structure Losses (V I : Type) [NormedAddCommGroup V] [NormedSpace ℝ V] [NormedAddCommGroup I] [NormedSpace ℝ I] where
  distortion : Node V ℝ
  flow : Option (Node V ℝ)
  residual : Option (Node V ℝ)
  estimate : Node V I

section
variable (n : Nets W I Fl La P) (w : Part → Node (Params W) W)

/-- The two bottlenecks add noise in training: the decoded flow and the likelihoods, `_utils.py:128-132`, `197-201`,
`deep_video_compression.py:291-296`. -/
noncomputable def motion (noise : La) (image1 image2 : Node (Params W) I) : Node (Params W) Fl × Node (Params W) P :=
  let flow := ((w .estimator).pair (image1.pair image2)).apply n.estimate
  let latent := ((w .motionEncoder).pair flow).apply n.encodeFlow
  let latent := latent.add (Node.const noise)
  let lik := ((w .motionBottleneck).pair latent).apply n.flowLik
  (((w .motionDecoder).pair latent).apply n.decodeFlow, lik)

/-- The mean of the losses of the levels of stage 1: `_utils.py:85-89` (there is at least one). -/
noncomputable def levelMean (losses : List (Node (Params W) ℝ)) : Node (Params W) ℝ :=
  (losses.foldr Node.add (Node.const 0)).scale (1 / losses.length)

/-- `compute_batch_loss` of the stages: `_utils.py:82-103`, `135-162`, `206-233`, `262-294`. -/
noncomputable def batchLoss (stage : Stage) (noise residualNoise : La) (image1 image2 : Node (Params W) I) :
    Losses (Params W) I :=
  match stage with
  | .one =>
    let input := (w .estimator).pair (image1.pair image2)
    let flow := input.apply n.estimate
    let loss := levelMean (n.levels.map fun l => (input.apply l).apply n.distortion)
    ⟨loss, none, none, ((image1.pair flow.detach).apply n.warp).detach⟩
  | .two =>
    let m := motion n w noise image1 image2
    let est := (image1.pair m.1).apply n.warp
    ⟨(image2.pair est).apply n.distortion, some (m.2.apply n.entropy), none, est.detach⟩
  | .three =>
    let m := motion n w noise image1 image2
    let est := (image1.pair m.1).apply n.warp
    let est := ((w .compensation).pair (image1.pair (est.pair m.1))).apply n.compensate
    ⟨(image2.pair est).apply n.distortion, some (m.2.apply n.entropy), none, est.detach⟩
  | .whole =>
    let m := motion n w noise image1 image2
    let est := (image1.pair m.1).apply n.warp
    let est := ((w .compensation).pair (image1.pair (est.pair m.1))).apply n.compensate
    let residual := image2.sub est
    let latent := ((w .residualEncoder).pair residual).apply n.encodeResidual
    let latent := latent.add (Node.const residualNoise)
    let lik := ((w .residualBottleneck).pair latent).apply n.residualLik
    let est := est.add (((w .residualDecoder).pair latent).apply n.decodeResidual)
    ⟨(image2.pair est).apply n.distortion, some (m.2.apply n.entropy), some (lik.apply n.entropy), est.detach⟩

end

/-- The loss of `compute_loss_and_metrics`: `dvc_module.py:153-178`. -/
noncomputable def totalLoss (l : Losses (Params W) I) : Node (Params W) ℝ :=
  let loss := l.distortion
  let loss := match l.flow with
    | some f => loss.add f
    | none => loss
  match l.residual with
  | some r => loss.add r
  | none => loss

/-- What one pass of the loop over the P-frames works with. -/
structure Record (W I : Type) [NormedAddCommGroup W] [NormedSpace ℝ W] [NormedAddCommGroup I] [NormedSpace ℝ I] where
  params : Params W
  reference : I
  losses : Losses (Params W) I
  loss : Node (Params W) ℝ

/-- The loop over the P-frames: `dvc_module.py:236-257`.  `opt` clips the gradient of the loss and makes the step of the
optimiser, whose state is `S`; `requiresGrad` says which networks are trained. -/
noncomputable def train {S : Type} (n : Nets W I Fl La P) (stage : Stage) (requiresGrad : Part → Bool)
    (opt : S → Params W → (Params W →L[ℝ] ℝ) → S × Params W) :
    S → Params W → I → List (I × La × La) → List (Record W I)
  | _, _, _, [] => []
  | s, v, image1, (image2, noise, residualNoise) :: rest =>
    let w := fun p => Node.leaf (ContinuousLinearMap.proj p) v (requiresGrad p)
    let losses := batchLoss n w stage noise residualNoise (Node.const image1) (Node.const image2)
    let loss := totalLoss losses
    let next := opt s v loss.der
    ⟨v, image1, losses, loss⟩ :: train n stage requiresGrad opt next.1 next.2 losses.estimate.val rest

end Verif.Train.DvcGrad
