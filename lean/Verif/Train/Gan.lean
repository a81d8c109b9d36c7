import Mathlib.Data.Real.Basic
import Mathlib.Data.List.Basic

/-!
Model of `/repo/projects/illm/gan_compression_module.py`: which parameters get gradients and are updated by which
optimiser in a training step, and how the batch is split.

Simplifications: a parameter is one real number; the gradients of the losses and the update rules of the optimisers
(including gradient clipping and learning rates) are arbitrary functions; logging is left out.  PyTorch is modelled as
far as used: `backward` adds to the gradient of the parameters that the loss was computed from and that have
`requires_grad`; an optimiser updates its parameters that have a gradient; `zero_grad` clears the gradients of its
parameters.
-/

namespace Verif.Train.Gan

/-- What a training step raises. -/
inductive Err where
  | type
  | value
  deriving DecidableEq, Repr

/-- The three kinds of parameters: of the model, the quantiles of its bottleneck, of the discriminator. -/
inductive Kind where
  | model
  | quantile
  | discriminator
  deriving DecidableEq, Repr

/-- The networks: the parameters in the order of `named_parameters`, their kinds, and the gradients of the three
losses.  The losses are computed from: the generator loss from the model (the medians of the bottleneck are detached)
and the discriminator; the discriminator loss from the discriminator only (its inputs are detached); the quantile
loss from the quantiles only. -/
structure Net (P Img : Type) where
  params : List P
  kind : P → Kind
  /-- `is_conditional`: `/repo/neuralcompression/models/_unet_discriminator.py:244-245, 323-324`. -/
  conditional : Bool
  generatorGrad : (P → ℝ) → List Img → P → ℝ
  discriminatorGrad : (P → ℝ) → (P → ℝ) → List Img → List Img → P → ℝ
  quantileGrad : (P → ℝ) → P → ℝ
  /-- The update rule of an optimiser after a number of steps, given the gradients of its parameters. -/
  update : Kind → ℕ → (P → Option ℝ) → P → ℝ → ℝ

/-- The state of the parameters, and how often each learning-rate schedule was advanced. -/
structure State (P : Type) where
  value : P → ℝ
  grad : P → Option ℝ
  requiresGrad : P → Bool
  schedule : Kind → ℕ

/-- The optimisers; the third is absent if no quantile takes gradients. -/
structure Opts (P : Type) where
  model : List P
  discriminator : List P
  quantile : Option (List P)

variable {P Img : Type} [DecidableEq P]

/-- `configure_optimizers`: `gan_compression_module.py:277-314`, with `collect_parameters` of the model
(`/repo/neuralcompression/models/_hyperprior_autoencoder.py:44-85`).  A PyTorch optimiser raises `ValueError` if it
gets no parameters. -/
def configure (n : Net P Img) (s : State P) : Except Err (Opts P) :=
  let model := n.params.filter fun p => n.kind p = .model ∧ s.requiresGrad p
  let quantile := n.params.filter fun p => n.kind p = .quantile ∧ s.requiresGrad p
  let discriminator := n.params.filter fun p => n.kind p = .discriminator
  if model = [] then .error .value
  else if discriminator = [] then .error .value
  else if quantile.length > 0 then .ok ⟨model, discriminator, some quantile⟩
  else .ok ⟨model, discriminator, none⟩

/-- `disable_gradients`, `enable_gradients`: `gan_compression_module.py:59-67`. -/
def setGradients (opt : List P) (flag : Bool) (s : State P) : State P :=
  { s with requiresGrad := fun p => if p ∈ opt then flag else s.requiresGrad p }

/-- `Optimizer.zero_grad`. -/
def zeroGrad (opt : List P) (s : State P) : State P :=
  { s with grad := fun p => if p ∈ opt then none else s.grad p }

/-- `backward` of a loss that was computed from the parameters of the kinds `used`. -/
def backward (n : Net P Img) (used : List Kind) (g : P → ℝ) (s : State P) : State P :=
  { s with grad := fun p => if n.kind p ∈ used ∧ s.requiresGrad p = true ∧ p ∈ n.params then some ((s.grad p).getD 0 + g p) else s.grad p }

/-- `Optimizer.step` (with the gradient clipping before it) and the step of its schedule. -/
def optStep (n : Net P Img) (k : Kind) (opt : List P) (s : State P) : State P :=
  let g := fun p => if p ∈ opt then s.grad p else none
  { s with
    value := fun p => match g p with
      | none => s.value p
      | some _ => n.update k (s.schedule k) g p (s.value p)
    schedule := fun k' => if k' = k then s.schedule k' + 1 else s.schedule k' }

/-- `_resample_batch`: `gan_compression_module.py:78-89`. -/
def resample (images : List Img) (mc : Bool) : List Img × List Img :=
  if mc then
    let split := images.length / 2
    (images.take split, (images.take (split * 2)).drop split)
  else (images, images)

/-- The call `self.discriminator(image, latent)`: `gan_compression_module.py:169-170, 236`.  A discriminator that is
not conditional takes one argument (`_unet_discriminator.py:247`). -/
def callWithContext (n : Net P Img) : Except Err Unit := if n.conditional then .ok () else .error .type

/-- `run_discriminator`: `gan_compression_module.py:69-73`. -/
def runDiscriminator (_n : Net P Img) : Except Err Unit := .ok ()

/-- The generator step: `gan_compression_module.py:117-157`. -/
def generatorPhase (n : Net P Img) (o : Opts P) (modelImages : List Img) (s : State P) : State P × Option Err :=
  let s := setGradients o.discriminator false s
  let s := setGradients o.model true s
  match runDiscriminator n with
  | .error e => (s, some e)
  | .ok () =>
    let g := n.generatorGrad s.value modelImages
    let s := zeroGrad o.model s
    let s := backward n [.model, .discriminator] g s
    (optStep n .model o.model s, none)

/-- The discriminator step: `gan_compression_module.py:159-186`; `old` are the parameters with which the images of the
generator step were made. -/
def discriminatorPhase (n : Net P Img) (o : Opts P) (old : P → ℝ) (modelImages discImages : List Img) (s : State P) :
    State P × Option Err :=
  let s := setGradients o.model false s
  let s := setGradients o.discriminator true s
  match callWithContext n with
  | .error e => (s, some e)
  | .ok () =>
    let g := n.discriminatorGrad old s.value modelImages discImages
    let s := zeroGrad o.discriminator s
    let s := backward n [.discriminator] g s
    (optStep n .discriminator o.discriminator s, none)

/-- The step of the quantile optimiser: `gan_compression_module.py:188-197`. -/
def quantilePhase (n : Net P Img) (o : Opts P) (s : State P) : State P :=
  match o.quantile with
  | none => s
  | some q =>
    let s := zeroGrad q s
    let s := backward n [.quantile] (n.quantileGrad s.value) s
    optStep n .quantile q s

/-- `training_step`: `gan_compression_module.py:91-197`.  The result is the state after each of the three phases (as
far as they were started) and the exception. -/
def trainingStep (n : Net P Img) (o : Opts P) (mc : Bool) (batch : List Img) (s : State P) :
    List (State P) × Option Err :=
  let images := resample batch mc
  match generatorPhase n o images.1 s with
  | (s1, some e) => ([s1], some e)
  | (s1, none) =>
    match discriminatorPhase n o s.value images.1 images.2 s1 with
    | (s2, some e) => ([s1, s2], some e)
    | (s2, none) => ([s1, s2, quantilePhase n o s2], none)

/-- `eval_step`, as far as it calls the discriminator: `gan_compression_module.py:220-237`. -/
def evalStep (n : Net P Img) : Option Err :=
  match callWithContext n with
  | .error e => some e
  | .ok () => none

/-- A run of training steps: the phases of all steps in order, and the first exception. -/
def fit (n : Net P Img) (o : Opts P) (mc : Bool) : List (List Img) → State P → List (List (State P)) × Option Err
  | [], _ => ([], none)
  | b :: bs, s =>
    match trainingStep n o mc b s with
    | (phases, some e) => ([phases], some e)
    | (phases, none) =>
      let rest := fit n o mc bs (phases.getLastD s)
      (phases :: rest.1, rest.2)

/-- `configure_optimizers` of the training without discriminator: `target_compression_module.py:276-293`.  Here the
quantile optimiser is always made. -/
def configureTarget (n : Net P Img) (s : State P) : Except Err (List P × List P) :=
  let model := n.params.filter fun p => n.kind p = .model ∧ s.requiresGrad p
  let quantile := n.params.filter fun p => n.kind p = .quantile ∧ s.requiresGrad p
  if model = [] then .error .value
  else if quantile = [] then .error .value
  else .ok (model, quantile)

/-- `training_step` without discriminator: `target_compression_module.py:139-175`; the state after the model step and
after the quantile step.  `lossGrad` is the gradient of distortion and rate. -/
def trainingStepTarget (n : Net P Img) (lossGrad : (P → ℝ) → List Img → P → ℝ) (o : List P × List P)
    (batch : List Img) (s : State P) : State P × State P :=
  let g := lossGrad s.value batch
  let s1 := optStep n .model o.1 (backward n [.model] g (zeroGrad o.1 s))
  let s2 := zeroGrad o.2 s1
  (s1, optStep n .quantile o.2 (backward n [.quantile] (n.quantileGrad s2.value) s2))

/-- Freezing a part of the model by hand or by `freeze_encoder`/`freeze_bottleneck`
(`/repo/neuralcompression/models/_hific_autoencoder.py:197-219`). -/
def freeze (part : List P) (s : State P) : State P := setGradients part false s

end Verif.Train.Gan
