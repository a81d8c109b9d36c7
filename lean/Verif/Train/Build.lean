import Verif.Models.Hific
import Verif.Models.Zoo
import Verif.Train.Gan

/-!
Model of building the module to train from a configuration: `build_model`, `configure_and_load_state_dict` and
`build_module` of `/repo/projects/illm/train.py:117-216`, and `VqVaeProjector`
(`/repo/neuralcompression/models/_vqvae_projector.py`).

Simplifications.  A configuration has the entries that these functions read; the losses, the rate target, the optimisers and
the other arguments of the module are left out.  The autoencoder is `HiFiCAutoencoder` and the latent autoencoder is
`VqVaeXCiTAutoencoder`, as in the configurations of the project.  The prefix that `pretrained_state_dict` removes from the keys
of a checkpoint is the subject of `Verif.Train.Keys`; here a file has weights, which fit an architecture or do not.
`torch.hub.load(..., force_reload=True)` calls the function of the hub with its default arguments (`Verif.Models.Zoo`).
-/

namespace Verif.Train.Build

open Verif.Models

/-- The arguments of `HiFiCAutoencoder` that fix the shapes: `/repo/neuralcompression/models/_hific_autoencoder.py:68-74`. -/
structure Sizes where
  inChannels : ℕ
  latentFeatures : ℕ
  hyperFeatures : ℕ
  residualBlocks : ℕ
  deriving DecidableEq

/-- The default arguments: `_hific_autoencoder.py:68-74`. -/
def Sizes.default : Sizes := ⟨3, 220, 320, 9⟩

/-- `cfg.model`: `/repo/projects/illm/conf/model/hific_autoencoder.yaml:1-7`. -/
structure ModelCfg where
  sizes : Sizes
  freezeEncoder : Bool
  freezeBottleneck : Bool

/-- A section `pretrained_autoencoder` or `pretrained_latent_autoencoder`: the name of the function of the hub, if the section has
an entry `torchhub`, and the path, which is null or missing otherwise:
`/repo/projects/illm/conf/pretrained_autoencoder/nogan_target0.14bpp.yaml:1-3`,
`/repo/projects/illm/conf/pretrained_autoencoder/example.yaml:1`. -/
structure Pretrained where
  torchhub : Option String
  path : Option String

/-- The configuration. -/
structure Cfg where
  model : ModelCfg
  pretrained : Option Pretrained
  /-- `cfg.distortion_loss` has an entry `_target_`. -/
  distortion : Bool
  discriminator : Bool
  latentProjector : Bool
  pretrainedLatent : Option Pretrained

/-- The architectures. -/
inductive Arch
  | hific (s : Sizes)
  | vqvae
  deriving DecidableEq

/-- What the functions raise: the `ValueError` of a misconfigured loss, an error of the hub, an error of `torch.load` or
`load_state_dict`. -/
inductive Err
  | misconfigured
  | hub (e : Zoo.Err)
  | file
  deriving DecidableEq

/-- A network: the weights that were loaded into it, if any were (otherwise it has those of its construction), and its flags.  The
flags by part are those of the autoencoder; a network of another kind has the flags of `Flags.fresh`. -/
structure Network (W : Type) where
  arch : Arch
  weights : Option W
  flags : Hific.Flags

/-- What the functions read: the hub with its cache and the connection, the files, and which weights fit. -/
structure World (W : Type) where
  zoo : Zoo.World W
  net : Zoo.Net
  zooFits : Zoo.Arch → W → Bool
  file : String → Option W
  fits : Arch → W → Bool

variable {W : Type}

/-- The network of a function of the hub: `HiFiCAutoencoder()` and the VQ-VAE, as
`/repo/neuralcompression/zoo/_msillm.py:28`, `/repo/neuralcompression/zoo/_noganms.py:26` and
`/repo/neuralcompression/zoo/_msillm_vqvae.py:52-72` construct them. -/
def ofHub (m : Zoo.Model W) : Network W :=
  match m.arch with
  | .hific => ⟨.hific .default, m.weights, Hific.Flags.init false false⟩
  | .vqvae => ⟨.vqvae, m.weights, Hific.Flags.fresh⟩

/-- `configure_and_load_state_dict`: `train.py:128-140`. -/
def configureAndLoad (w : World W) (model : Network W) (cfg : Pretrained) : Except Err (Network W) :=
  match cfg.torchhub with
  | some name =>
    match (Zoo.callHub w.zooFits w.zoo w.net name none []).2 with
    | .ok m => .ok (ofHub m)
    | .error e => .error (.hub e)
  | none =>
    match cfg.path.bind w.file with
    | none => .error .file
    | some x => if w.fits model.arch x then .ok { model with weights := some x } else .error .file

/-- `hydra.utils.instantiate(cfg.model)`: `train.py:146`, `_hific_autoencoder.py:68-127`. -/
def instantiate (c : ModelCfg) : Network W := ⟨.hific c.sizes, none, Hific.Flags.init c.freezeEncoder c.freezeBottleneck⟩

/-- `build_model`: `train.py:143-150`. -/
def buildModel (w : World W) (cfg : Cfg) : Except Err (Network W) :=
  match cfg.pretrained with
  | none => .ok (instantiate cfg.model)
  | some p => configureAndLoad w (instantiate cfg.model) p

/-- A projector: its weights, and whether its modules are in training mode and its parameters take gradients. -/
structure Projector (W : Type) where
  arch : Arch
  weights : Option W
  training : Bool
  requiresGrad : Bool

/-- The constructor of `VqVaeProjector`, and what `build_module` does with the projector after it:
`_vqvae_projector.py:30-40`, `train.py:194-200`. -/
def Projector.ofNetwork (n : Network W) : Projector W := ⟨n.arch, n.weights, false, false⟩

/-- `VqVaeProjector.train`, which `nn.Module.train` of the module calls: `_vqvae_projector.py:42-44`. -/
def Projector.train (p : Projector W) (_mode : Bool) : Projector W := { p with training := false }

/-- The latent projector, and whether there was a warning: `train.py:178-202`. -/
def buildProjector (w : World W) (cfg : Cfg) : Except Err (Option (Projector W) × Bool) :=
  if cfg.latentProjector then
    match cfg.pretrainedLatent with
    | none => .ok (some (.ofNetwork ⟨.vqvae, none, Hific.Flags.fresh⟩), true)
    | some p =>
      match configureAndLoad w ⟨.vqvae, none, Hific.Flags.fresh⟩ p with
      | .error e => .error e
      | .ok n => .ok (some (.ofNetwork n), false)
  else .ok (none, false)

/-- The module to train: `TargetRateCompressionModule` or `GANCompressionModule`. -/
inductive Module (W : Type)
  | target (model : Network W)
  | gan (model : Network W) (projector : Option (Projector W)) (warned : Bool)

/-- The autoencoder of a module. -/
def Module.model : Module W → Network W
  | .target m => m
  | .gan m _ _ => m

/-- `build_module`: `train.py:153-216`. -/
def buildModule (w : World W) (cfg : Cfg) : Except Err (Module W) :=
  match buildModel w cfg with
  | .error e => .error e
  | .ok model =>
    if ¬ cfg.distortion then .error .misconfigured
    else if ¬ cfg.discriminator then .ok (.target model)
    else
      match buildProjector w cfg with
      | .error e => .error e
      | .ok (projector, warned) => .ok (.gan model projector warned)

/-! ### Training the module -/

variable {P Img : Type}

/-- `module.train(mode)` (Lightning calls it before and after each validation): `_hific_autoencoder.py:221-228`,
`_vqvae_projector.py:42-44`. -/
def Module.train (m : Module W) (mode : Bool) : Module W :=
  match m with
  | .target n => .target { n with flags := n.flags.train mode }
  | .gan n p w => .gan { n with flags := n.flags.train mode } (p.map (·.train mode)) w

/-- The parameters before the first training step: `values` are the parameters by weights, `part` is the part of the
autoencoder that a parameter is in.  The discriminator is new and takes gradients. -/
def Module.start (m : Module W) (net : Gan.Net P Img) (part : P → Hific.Part) (values : Option W → P → ℝ) : Gan.State P where
  value := values m.model.weights
  grad := fun _ => none
  requiresGrad := fun p => if net.kind p = .discriminator then true else m.model.flags.requiresGrad (part p)
  schedule := fun _ => 0

/-- `module.train(mode)` in the state: frozen parts are frozen again, nothing else changes:
`_hific_autoencoder.py:221-228`, `197-219`. -/
def Module.refreeze (m : Module W) (net : Gan.Net P Img) (part : P → Hific.Part) (s : Gan.State P) : Gan.State P :=
  { s with
    requiresGrad := fun p =>
      if net.kind p ≠ .discriminator ∧ ((m.model.flags.frozenEncoder = true ∧ part p = .encoder) ∨
          (m.model.flags.frozenBottleneck = true ∧ (part p).coding = true)) then false
      else s.requiresGrad p }

/-- What happens during `trainer.fit`: a training step, or a call of `train` (before and after each validation). -/
inductive Event (Img : Type)
  | step (batch : List Img)
  | train (mode : Bool)

/-- One event in the training with a discriminator: `/repo/projects/illm/gan_compression_module.py:91-197`.  The state after a
training step is that after its last phase. -/
def ganEvent [DecidableEq P] (m : Module W) (net : Gan.Net P Img) (part : P → Hific.Part) (o : Gan.Opts P) (mc : Bool)
    (s : Gan.State P) : Event Img → Gan.State P
  | .step batch => (Gan.trainingStep net o mc batch s).1.getLastD s
  | .train _ => m.refreeze net part s

/-- One event in the training without a discriminator: `/repo/projects/illm/target_compression_module.py:139-175`. -/
def targetEvent [DecidableEq P] (m : Module W) (net : Gan.Net P Img) (part : P → Hific.Part)
    (lossGrad : (P → ℝ) → List Img → P → ℝ) (o : List P × List P) (s : Gan.State P) : Event Img → Gan.State P
  | .step batch => (Gan.trainingStepTarget net lossGrad o batch s).2
  | .train _ => m.refreeze net part s

end Verif.Train.Build
