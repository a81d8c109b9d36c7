import Verif.Train.Autograd

/-!
Model of the gradients of the image codecs: the forward pass of the HiFiC autoencoder in training mode
(`/repo/neuralcompression/models/_hific_autoencoder.py:232-273`), the losses of the adversarial training step
(`/repo/projects/illm/gan_compression_module.py:91-186`) and the vector quantiser
(`/repo/neuralcompression/layers/_q_bottleneck.py:112-165`).

Simplifications: networks and losses are arbitrary operations with a derivative; the noise of the bottlenecks is an
input; the parameters of the hyper bottleneck belong to the hyper networks (its quantiles have their own loss and
optimiser, see C61, and are not used in training mode).
-/

namespace Verif.Train.ImageGrad

open Autograd

variable {We Wh Wd Wc I H P Q D : Type}
  [NormedAddCommGroup We] [NormedSpace ℝ We] [NormedAddCommGroup Wh] [NormedSpace ℝ Wh]
  [NormedAddCommGroup Wd] [NormedSpace ℝ Wd] [NormedAddCommGroup Wc] [NormedSpace ℝ Wc]
  [NormedAddCommGroup I] [NormedSpace ℝ I] [NormedAddCommGroup H] [NormedSpace ℝ H]
  [NormedAddCommGroup P] [NormedSpace ℝ P] [NormedAddCommGroup Q] [NormedSpace ℝ Q]
  [NormedAddCommGroup D] [NormedSpace ℝ D]
  {ι : Type} [Fintype ι]

/-- The networks of the autoencoder: `_hific_autoencoder.py:72-127`.  `hyperLik` and `latentLik` are the likelihoods of
the two bottlenecks for given (noised or rounded) latents; the rounding of the evaluation mode is part of the two
`Quant` functions. -/
structure Hific (We Wh Wd I H P Q ι : Type)
    [NormedAddCommGroup We] [NormedSpace ℝ We] [NormedAddCommGroup Wh] [NormedSpace ℝ Wh]
    [NormedAddCommGroup Wd] [NormedSpace ℝ Wd] [NormedAddCommGroup I] [NormedSpace ℝ I]
    [NormedAddCommGroup H] [NormedSpace ℝ H] [NormedAddCommGroup P] [NormedSpace ℝ P]
    [NormedAddCommGroup Q] [NormedSpace ℝ Q] [Fintype ι] where
  encoder : Op (We × I) (ι → ℝ)
  hyperAnalysis : Op (Wh × (ι → ℝ)) H
  hyperLik : Op (Wh × H) P
  hyperLikQuant : Wh → H → P
  mean : Op (Wh × H) (ι → ℝ)
  scale : Op (Wh × H) (ι → ℝ)
  latentLik : Op ((ι → ℝ) × (ι → ℝ) × (ι → ℝ)) Q
  latentLikQuant : (ι → ℝ) → (ι → ℝ) → (ι → ℝ) → Q
  decoder : Op (Wd × (ι → ℝ)) I

/-- The parameters: of the encoder, the hyper networks, the decoder and the discriminator. -/
abbrev Params (We Wh Wd Wc : Type) := We × Wh × Wd × Wc

/-- Which of them have `requires_grad`. -/
structure Flags where
  encoder : Bool
  hyper : Bool
  decoder : Bool
  discriminator : Bool

/-- The fields of `HyperpriorOutput`: `_hific_autoencoder.py:265-273`. -/
structure Output (V I H P Q ι : Type) [NormedAddCommGroup V] [NormedSpace ℝ V]
    [NormedAddCommGroup I] [NormedSpace ℝ I] [NormedAddCommGroup H] [NormedSpace ℝ H]
    [NormedAddCommGroup P] [NormedSpace ℝ P] [NormedAddCommGroup Q] [NormedSpace ℝ Q] [Fintype ι] where
  image : Node V I
  latent : Node V (ι → ℝ)
  latentLik : Node V Q
  quantLatentLik : Node V Q
  hyperLatent : Node V H
  hyperLik : Node V P
  quantHyperLik : Node V P

/-- `_ste_quantize(latent, means)`: `/repo/neuralcompression/models/_hyperprior_autoencoder.py:87-101`. -/
noncomputable def steQuantize {V : Type} [NormedAddCommGroup V] [NormedSpace ℝ V] (latent means : Node V (ι → ℝ)) :
    Node V (ι → ℝ) := (roundSt (latent.sub means)).add means

/-- The parameters as tensors at `v`. -/
def encoderPart : Params We Wh Wd Wc →L[ℝ] We := ContinuousLinearMap.fst ℝ _ _
/-- See `encoderPart`. -/
def hyperPart : Params We Wh Wd Wc →L[ℝ] Wh := (ContinuousLinearMap.fst ℝ _ _).comp (ContinuousLinearMap.snd ℝ _ _)
/-- See `encoderPart`. -/
def decoderPart : Params We Wh Wd Wc →L[ℝ] Wd :=
  (ContinuousLinearMap.fst ℝ _ _).comp ((ContinuousLinearMap.snd ℝ _ _).comp (ContinuousLinearMap.snd ℝ _ _))
/-- See `encoderPart`. -/
def discPart : Params We Wh Wd Wc →L[ℝ] Wc :=
  (ContinuousLinearMap.snd ℝ _ _).comp ((ContinuousLinearMap.snd ℝ _ _).comp (ContinuousLinearMap.snd ℝ _ _))

/-- `forward` in training mode: `_hific_autoencoder.py:232-273`; `hyperNoise` and `latentNoise` are what the two
bottlenecks add in this call (`_hific_autoencoder.py:242`, `248`). -/
noncomputable def forward (n : Hific We Wh Wd I H P Q ι) (r : Flags) (hyperNoise : H) (latentNoise : ι → ℝ)
    (image : I) (v : Params We Wh Wd Wc) : Output (Params We Wh Wd Wc) I H P Q ι :=
  let we := Node.leaf encoderPart v r.encoder
  let wh := Node.leaf hyperPart v r.hyper
  let wd := Node.leaf decoderPart v r.decoder
  let latent := (we.pair (Node.const image)).apply n.encoder
  let hyper := (wh.pair latent).apply n.hyperAnalysis
  let hyper := hyper.add (Node.const hyperNoise)
  let hyperLik := (wh.pair hyper).apply n.hyperLik
  let quantHyperLik := Node.const (n.hyperLikQuant wh.val hyper.val)
  let means := (wh.pair hyper).apply n.mean
  let scales := (wh.pair hyper).apply n.scale
  let latentLik := ((latent.add (Node.const latentNoise)).pair (scales.pair means)).apply n.latentLik
  let quantLatentLik := Node.const (n.latentLikQuant latent.val scales.val means.val)
  let latent := steQuantize latent means
  ⟨(wd.pair latent).apply n.decoder, latent, latentLik, quantLatentLik.detach, hyper, hyperLik, quantHyperLik.detach⟩

/-- The discriminator, the losses and their weights: `gan_compression_module.py:28-57`.  The quantised likelihoods only
select the weight of the rate (see C82).  `real` and `fake` are the targets, computed under `no_grad` or constant. -/
structure Gan (Wc I D P Q ι : Type) [NormedAddCommGroup Wc] [NormedSpace ℝ Wc]
    [NormedAddCommGroup I] [NormedSpace ℝ I] [NormedAddCommGroup D] [NormedSpace ℝ D]
    [NormedAddCommGroup P] [NormedSpace ℝ P] [NormedAddCommGroup Q] [NormedSpace ℝ Q] [Fintype ι] where
  /-- `some` if the discriminator is conditional. -/
  conditional : Option (Op (Wc × I × (ι → ℝ)) D)
  unconditional : Op (Wc × I) D
  distortion : Op (I × I) ℝ
  rate : Q → P → Op (Q × P) ℝ
  generator : Op D ℝ
  discriminatorLoss : Op (D × D) ℝ
  distortionLam : ℝ
  generatorWeight : ℝ

/-- `run_discriminator`: `gan_compression_module.py:69-73`. -/
noncomputable def runDiscriminator {V : Type} [NormedAddCommGroup V] [NormedSpace ℝ V] (g : Gan Wc I D P Q ι) (wc : Node V Wc)
    (images : Node V I) (context : Node V (ι → ℝ)) : Node V D :=
  match g.conditional with
  | some f => (wc.pair (images.pair context)).apply f
  | none => (wc.pair images).apply g.unconditional

/-- The flags of the generator step: `gan_compression_module.py:118-119`; parameters that were frozen when the
optimiser was made stay so. -/
def generatorFlags (r : Flags) : Flags := { r with discriminator := false }

/-- `model_loss`: `gan_compression_module.py:121-145`. -/
noncomputable def modelLoss (g : Gan Wc I D P Q ι) (r : Flags) (images : I) (v : Params We Wh Wd Wc)
    (output : Output (Params We Wh Wd Wc) I H P Q ι) : Node (Params We Wh Wd Wc) ℝ :=
  let wc := Node.leaf discPart v r.discriminator
  let distortion := (output.image.pair (Node.const images)).apply g.distortion
  let gLoss := (runDiscriminator g wc output.image output.latent.detach).apply g.generator
  let rate := (output.latentLik.pair output.hyperLik).apply (g.rate output.quantLatentLik.val output.quantHyperLik.val)
  ((distortion.scale g.distortionLam).add rate).add (gLoss.scale g.generatorWeight)

/-- The generator step: `gan_compression_module.py:117-149`: the output of the model and the loss that is sent
backward. -/
noncomputable def generatorStep (n : Hific We Wh Wd I H P Q ι) (g : Gan Wc I D P Q ι) (r : Flags) (hyperNoise : H)
    (latentNoise : ι → ℝ) (images : I) (v : Params We Wh Wd Wc) :
    Output (Params We Wh Wd Wc) I H P Q ι × Node (Params We Wh Wd Wc) ℝ :=
  let output := forward n (generatorFlags r) hyperNoise latentNoise images v
  (output, modelLoss g (generatorFlags r) images v output)

/-- `disc_loss`: `gan_compression_module.py:159-174` for a conditional discriminator `f` (another one raises, see C61):
`output` is that of the generator step, `discLatent` the latent of the output for the images of the discriminator,
which may be the same. -/
noncomputable def discLoss (g : Gan Wc I D P Q ι) (f : Op (Wc × I × (ι → ℝ)) D) (discImages : I)
    (v : Params We Wh Wd Wc) (output : Output (Params We Wh Wd Wc) I H P Q ι)
    (discLatent : Node (Params We Wh Wd Wc) (ι → ℝ)) : Node (Params We Wh Wd Wc) ℝ :=
  let wc := Node.leaf discPart v true
  let fake := (wc.pair (output.image.detach.pair output.latent.detach)).apply f
  let real := (wc.pair ((Node.const discImages).pair discLatent.detach)).apply f
  (real.pair fake).apply g.discriminatorLoss

/-! ### Vector quantisation -/

section Vq
variable {V Pix Code : Type} [NormedAddCommGroup V] [NormedSpace ℝ V] [Fintype Pix] {d : ℕ}

/-- `F.mse_loss(a, b)` of the vectors of all pixels: the mean of the squared differences. -/
noncomputable def mse (a b : Pix → Node V (Fin d → ℝ)) : Node V ℝ :=
  ⟨(∑ p, ∑ c, ((a p).val c - (b p).val c) ^ 2) / (Fintype.card Pix * d),
    ((1 : ℝ) / (Fintype.card Pix * d)) •
      ∑ p, ∑ c, (2 * ((a p).val c - (b p).val c)) • (ContinuousLinearMap.proj c).comp ((a p).der - (b p).der)⟩

/-- What the quantiser returns, as far as losses are made of it. -/
structure VqOutput (V Pix : Type) [NormedAddCommGroup V] [NormedSpace ℝ V] (d : ℕ) where
  latent : Pix → Node V (Fin d → ℝ)
  commitment : Node V ℝ
  embedding : Node V ℝ

/-- `quantize_vectors`: `_q_bottleneck.py:112-165` with `normalize_codebook`; `rows` are the vectors of the codebook;
the normalisation of a row is an operation with a derivative; which code each pixel gets is decided by the values only
(`argmin` has no derivative), see C47 and C73. -/
noncomputable def quantize (normalizeCodebook : Bool) (normalize : Op (Fin d → ℝ) (Fin d → ℝ))
    (choose : (Code → Fin d → ℝ) → (Pix → Fin d → ℝ) → Pix → Code) (rows : Code → Node V (Fin d → ℝ))
    (preq : Pix → Node V (Fin d → ℝ)) : VqOutput V Pix d :=
  let codebook := if normalizeCodebook then fun k => (rows k).apply normalize else rows
  let indices := choose (fun k => (codebook k).val) (fun p => (preq p).val)
  let latents := fun p => codebook (indices p)
  { latent := fun p => (preq p).add (((latents p).sub (preq p)).detach)
    commitment := mse (fun p => (latents p).detach) preq
    embedding := mse latents fun p => (preq p).detach }

end Vq

end Verif.Train.ImageGrad
