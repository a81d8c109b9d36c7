import Verif.Layers.Vq

/-!
Model of a VQ-VAE and a latent projector made from it, which share their modules:
`/repo/neuralcompression/models/_vqvae_projector.py`, `_vqvae_xcit_autoencoder.py:480-554`,
`/repo/neuralcompression/layers/_vq_bottleneck.py`.

Simplifications: encoder, decoder, padding and cropping are arbitrary functions.  The modules that behave differently in
training mode are the dropout layers; their random numbers are an argument.  The bottleneck is a tree of a projection, a
normalisation and a quantiser: what happens before and after the quantiser are arbitrary functions.  Weights do not
change (no optimiser step); the only buffer that a call changes is the counter of the codebook.
-/

namespace Verif.Models.Projector

open Verif.Layers

/-- The functions that the parts compute with the weights that they have.  `I` are images, `S` the random numbers of
dropout.  A latent comes with its batch size, height and width. -/
structure Net (I S : Type) (d K : ℕ) where
  /-- `_VqVaeXCiTConvEncoder.forward` (by training mode and random numbers), with what the bottleneck does before the
  quantiser: `/repo/neuralcompression/models/_vqvae_xcit_autoencoder.py:265-286`. -/
  encoder : Bool → S → I → (ℕ × ℕ × ℕ) × Vq.Latent d
  /-- What the bottleneck does after the quantiser, and the decoder:
  `/repo/neuralcompression/models/_vqvae_xcit_autoencoder.py:388-411`. -/
  decoder : Bool → S → Vq.Latent d → I
  /-- The padding in evaluation mode: `/repo/neuralcompression/models/_vqvae_xcit_autoencoder.py:540-545`. -/
  pad : I → I
  /-- Cropping to the size of the image: `/repo/neuralcompression/models/_vqvae_xcit_autoencoder.py:552`. -/
  crop : I → I → I

/-- The flags of a module: its mode, and whether its parameters take gradients. -/
structure Flags where
  training : Bool
  requiresGrad : Bool
  deriving DecidableEq

/-- The objects: the mode and the settings of the VQ-VAE, its three parts, the mode of the projector if one was made
(it has no parts of its own), and the codebook with its counters.
`/repo/neuralcompression/models/_vqvae_xcit_autoencoder.py:480-509`, `_vqvae_projector.py:29-38`. -/
structure World (d K : ℕ) where
  training : Bool
  freezeEncoder : Bool
  freezeBottleneck : Bool
  encoder : Flags
  bottleneck : Flags
  decoder : Flags
  projector : Option Bool
  vq : Vq.State d K

variable {I S : Type} {d K : ℕ}

/-- A new VQ-VAE: `/repo/neuralcompression/models/_vqvae_xcit_autoencoder.py:480-522`. -/
def World.new (freezeEncoder freezeBottleneck : Bool) (codebook : Fin (K + 1) → Fin d → ℝ) : World d K :=
  { training := true
    freezeEncoder := freezeEncoder
    freezeBottleneck := freezeBottleneck
    encoder := ⟨!freezeEncoder, !freezeEncoder⟩
    bottleneck := ⟨!freezeBottleneck, !freezeBottleneck⟩
    decoder := ⟨true, true⟩
    projector := none
    vq := Vq.fresh codebook }

/-- `vq_model.train(mode)`, for which the VQ-VAE uses the method of `nn.Module`: it sets the mode of the module and of
all its parts. -/
def World.modelTrain (w : World d K) (mode : Bool) : World d K :=
  { w with
    training := mode
    encoder := { w.encoder with training := mode }
    bottleneck := { w.bottleneck with training := mode }
    decoder := { w.decoder with training := mode } }

/-- The beginning of `forward`: frozen parts are frozen again.
`/repo/neuralcompression/models/_vqvae_xcit_autoencoder.py:527-537`. -/
def World.refreeze (w : World d K) : World d K :=
  { w with
    encoder := if w.freezeEncoder then ⟨false, false⟩ else w.encoder
    bottleneck := if w.freezeBottleneck then ⟨false, false⟩ else w.bottleneck }

/-- `VqVaeXCiTAutoencoder.forward`: image and indices of the result, and the objects after it.
`/repo/neuralcompression/models/_vqvae_xcit_autoencoder.py:527-554`. -/
noncomputable def World.modelCall (n : Net I S d K) (w : World d K) (s : S) (image : I) :
    World d K × I × List (Fin (K + 1)) :=
  let w := w.refreeze
  let padded := if w.training then image else n.pad image
  let latent := n.encoder w.encoder.training s padded
  let (B, H, W) := latent.1
  let out := Vq.forward w.vq B H W latent.2
  ({ w with vq := out.1 }, n.crop image (n.decoder w.decoder.training s out.2.1.latent),
    (List.range (B * H * W)).map out.2.1.indices)

/-- `VqVaeProjector(vq_model)`: it takes encoder and bottleneck of the model, puts them into evaluation mode and switches
their gradients off.  `/repo/neuralcompression/models/_vqvae_projector.py:29-38`. -/
def World.makeProjector (w : World d K) : World d K :=
  { w with
    projector := some false
    encoder := ⟨false, false⟩
    bottleneck := ⟨false, false⟩ }

/-- `projector.train(mode)`: whatever the argument, the projector and its parts are put into evaluation mode.
`/repo/neuralcompression/models/_vqvae_projector.py:40-42`. -/
def World.projectorTrain (w : World d K) (_mode : Bool) : World d K :=
  match w.projector with
  | none => w
  | some _ =>
    { w with
      projector := some false
      encoder := { w.encoder with training := false }
      bottleneck := { w.bottleneck with training := false } }

/-- `projector(image)`: `/repo/neuralcompression/models/_vqvae_projector.py:44-50`.  There is no padding. -/
noncomputable def World.projectorCall (n : Net I S d K) (w : World d K) (s : S) (image : I) :
    World d K × List (Fin (K + 1)) :=
  let latent := n.encoder w.encoder.training s image
  let (B, H, W) := latent.1
  let out := Vq.forward w.vq B H W latent.2
  ({ w with vq := out.1 }, (List.range (B * H * W)).map out.2.1.indices)

/-- What can happen to the two. -/
inductive Event (I S : Type) where
  | modelTrain (mode : Bool)
  | modelCall (s : S) (image : I)
  | makeProjector
  | projectorTrain (mode : Bool)
  | projectorCall (s : S) (image : I)

/-- One event. -/
noncomputable def World.apply (n : Net I S d K) (w : World d K) : Event I S → World d K
  | .modelTrain mode => w.modelTrain mode
  | .modelCall s image => (w.modelCall n s image).1
  | .makeProjector => w.makeProjector
  | .projectorTrain mode => w.projectorTrain mode
  | .projectorCall s image => (w.projectorCall n s image).1

/-- A history. -/
noncomputable def World.run (n : Net I S d K) (w : World d K) (events : List (Event I S)) : World d K :=
  events.foldl (World.apply n) w

end Verif.Models.Projector
