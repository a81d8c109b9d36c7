import Mathlib.Analysis.SpecialFunctions.Sqrt
import Mathlib.Data.List.Basic

/-!
Model of gradient clipping: `/repo/projects/illm/target_compression_module.py`, `gan_compression_module.py` in the same
directory, and `/repo/projects/deep_video_compression/dvc_module.py`, with `clip_gradients` of Lightning 2.0.1 and
`clip_grad_norm_`, `clip_grad_value_` of PyTorch 2.0.1.

Simplifications: floats are real numbers; the weights, the gradients of the losses at given weights, and the rules by which
optimisers change weights are arbitrary; the trainer has no clipping setting of its own (Lightning refuses one for modules
that optimise manually); which images a loss is computed from is not modelled (see `Train/Gan`).
-/

namespace Verif.Train.Clip

/-- What a step raises: Lightning's `MisconfigurationException`. -/
inductive Err where
  | misconfiguration
  deriving DecidableEq

/-- The `.grad` of every parameter, a list of entries or `None`. -/
abbrev Grads (P : Type) := P → Option (List ℝ)

variable {P W : Type} [DecidableEq P]

/-- `torch.norm(x, 2.0)`. -/
noncomputable def norm (l : List ℝ) : ℝ := Real.sqrt (l.map (· ^ 2)).sum

/-- `clip_grad_norm_` (torch/nn/utils/clip_grad.py), called by dvc_module.py:254-256 and by Lightning: norm of the norms of the
gradients there are, then all of them are multiplied by the bounded coefficient. -/
noncomputable def clipNorm (maxNorm : ℝ) (opt : List P) (g : Grads P) : Grads P :=
  let grads := opt.filterMap g
  let totalNorm := norm (grads.map norm)
  let coef := maxNorm / (totalNorm + 1 / 10 ^ 6)
  let coef := min coef 1
  fun p => if p ∈ opt then (g p).map fun l => l.map fun x => x * coef else g p

/-- `clip_grad_value_` (torch/nn/utils/clip_grad.py), called by Lightning. -/
noncomputable def clipValue (value : ℝ) (opt : List P) (g : Grads P) : Grads P :=
  fun p => if p ∈ opt then (g p).map fun l => l.map fun x => min (max x (-value)) value else g p

/-- `LightningModule.clip_gradients` (Lightning 2.0.1) on the parameters of an optimiser: the algorithm's name is taken in lower
case and checked, and nothing is done for a value that is not positive. -/
noncomputable def clipGradients (val : ℝ) (algorithm : String) (opt : List P) (g : Grads P) : Except Err (Grads P) :=
  open Classical in
  if algorithm.toLower ≠ "value" ∧ algorithm.toLower ≠ "norm" then .error .misconfiguration
  else if val ≤ 0 then .ok g
  else if algorithm.toLower = "value" then .ok (clipValue val opt g)
  else .ok (clipNorm val opt g)

/-- `target_compression_module.py:162-167`, `gan_compression_module.py:150-155`, `179-184`; the settings are
`target_compression_module.py:53-54`. -/
noncomputable def clip (val : Option ℝ) (algorithm : String) (opt : List P) (g : Grads P) : Except Err (Grads P) :=
  match val with
  | none => .ok g
  | some v => clipGradients v algorithm opt g

/-- `Optimizer.zero_grad`. -/
def zeroGrad (opt : List P) (g : Grads P) : Grads P := fun p => if p ∈ opt then none else g p

/-- `backward`: adds the gradients of the loss to those of the parameters that take gradients. -/
def backward (frozen : List P) (loss g : Grads P) : Grads P := fun p =>
  if p ∈ frozen then g p
  else match g p, loss p with
    | old, none => old
    | none, some new => some new
    | some old, some new => some (List.zipWith (· + ·) old new)

/-- The gradients that an optimiser sees: those of its parameters. -/
def seenBy (opt : List P) (g : Grads P) : Grads P := fun p => if p ∈ opt then g p else none

/-- The optimisers of a module, and their rules: how the weights change by the gradients seen. -/
structure Opts (P W : Type) where
  model : List P
  disc : List P
  quantile : Option (List P)
  modelRule : Grads P → W → W
  discRule : Grads P → W → W
  quantileRule : Grads P → W → W

/-- What the optimisers saw in a step. -/
structure Seen (P : Type) where
  model : Grads P
  disc : Grads P
  quantile : Option (Grads P)

/-- `GANCompressionModule.training_step` (gan_compression_module.py:117-197): the weights and gradients afterwards, and what the
optimisers saw. -/
noncomputable def ganStep (val : Option ℝ) (algorithm : String) (o : Opts P W) (genLoss : W → Grads P) (discLoss : W → W → Grads P)
    (quantileLoss : W → Grads P) (w : W) (g : Grads P) : Except Err (Seen P × W × Grads P) := do
  let g := zeroGrad o.model g
  let g := backward o.disc (genLoss w) g
  let g ← clip val algorithm o.model g
  let seenModel := seenBy o.model g
  let w' := o.modelRule seenModel w
  let g := zeroGrad o.disc g
  let g := backward o.model (discLoss w w') g
  let g ← clip val algorithm o.disc g
  let seenDisc := seenBy o.disc g
  let w' := o.discRule seenDisc w'
  match o.quantile with
  | none => return (⟨seenModel, seenDisc, none⟩, w', g)
  | some q =>
    let g := zeroGrad q g
    let g := backward o.model (quantileLoss w') g
    let seenQuantile := seenBy q g
    return (⟨seenModel, seenDisc, some seenQuantile⟩, o.quantileRule seenQuantile w', g)

/-- `TargetCompressionModule.training_step` (target_compression_module.py:160-177): what the optimisers of model and quantiles
saw, and the weights and gradients afterwards. -/
noncomputable def targetStep (val : Option ℝ) (algorithm : String) (model quantile : List P) (modelRule quantileRule : Grads P → W → W)
    (loss quantileLoss : W → Grads P) (w : W) (g : Grads P) : Except Err ((Grads P × Grads P) × W × Grads P) := do
  let g := zeroGrad model g
  let g := backward [] (loss w) g
  let g ← clip val algorithm model g
  let seenModel := seenBy model g
  let w := modelRule seenModel w
  let g := zeroGrad quantile g
  let g := backward [] (quantileLoss w) g
  let seenQuantile := seenBy quantile g
  return ((seenModel, seenQuantile), quantileRule seenQuantile w, g)

/-- The P-frames of `DvcModule.training_step` (dvc_module.py:236-257): the gradients that the first optimiser saw for each, with the
weights for which they were computed.  `frameLoss` gives the gradients for the frames, at given weights; the reconstruction of
the previous frame that the loss also depends on is part of `W`. -/
noncomputable def dvcFrames (clipValue : ℝ) (opt : List P) (rule : Grads P → W → W) :
    List (W → Grads P) → W → Grads P → List (W × Grads P)
  | [], _, _ => []
  | frameLoss :: rest, w, g =>
    let g := zeroGrad opt g
    let g := backward [] (frameLoss w) g
    let g := clipNorm clipValue opt g
    let seen := seenBy opt g
    (w, seen) :: dvcFrames clipValue opt rule rest (rule seen w) g

end Verif.Train.Clip
