import Verif.Models.HificValues
import Verif.Layers.Norm
import Mathlib.Algebra.BigOperators.Group.Finset.Basic

/-!
Model of the values that the networks of `HiFiCAutoencoder` compute: `/repo/neuralcompression/models/_hific_encoder_decoder.py`
(encoder and generator), `_hific_autoencoder.py:20-44`, `90-120` (hyper-analysis and hyper-synthesis) and the channel
normalisation of `/repo/neuralcompression/layers/_channel_norm.py`, for all weights.

Simplifications: real numbers instead of floats; a tensor is an `Image`, whose channels beyond the number of channels
of the layer are never read; `inplace=True` of the activations is not modelled (their inputs are not used again).
-/

namespace Verif.Models.HificNet

open Verif Verif.Functional Verif.Models.Hific Verif.Models.HificValues

/-- The value at a position, and zero outside: the zero padding of torch's convolutions
(`_hific_encoder_decoder.py:42`, `48-54`, `62`). -/
def zeroPadded (x : Image ℝ) (b c : ℕ) (i j : ℤ) : ℝ :=
  if 0 ≤ i ∧ i < x.height ∧ 0 ≤ j ∧ j < x.width then x.pix b c i.toNat j.toNat else 0

/-- The parameters of a convolution: `weight[o, c, di, dj]` (for a transposed one `weight[c, o, di, dj]`) and
`bias[o]`. -/
structure ConvW where
  weight : ℕ → ℕ → ℕ → ℕ → ℝ
  bias : ℕ → ℝ

/-- `nn.Conv2d(cin, _, kernel, stride, padding)` (torch), e.g. `_hific_encoder_decoder.py:42`. -/
noncomputable def conv2d (cin kernel stride padding : ℕ) (w : ConvW) (x : Image ℝ) : Image ℝ where
  height := conv kernel stride padding x.height
  width := conv kernel stride padding x.width
  pix b o i j := w.bias o + ∑ c ∈ Finset.range cin, ∑ di ∈ Finset.range kernel, ∑ dj ∈ Finset.range kernel,
    w.weight o c di dj * zeroPadded x b c ((i : ℤ) * stride + di - padding) ((j : ℤ) * stride + dj - padding)

/-- `nn.ConvTranspose2d(cin, _, kernel, stride, padding, output_padding)` (torch), e.g.
`_hific_encoder_decoder.py:126-133`: input position `u` goes to the positions `u * stride - padding + di`. -/
noncomputable def convTranspose2d (cin kernel stride padding outputPadding : ℕ) (w : ConvW) (x : Image ℝ) : Image ℝ where
  height := deconv kernel stride padding outputPadding x.height
  width := deconv kernel stride padding outputPadding x.width
  pix b o i j := w.bias o + ∑ c ∈ Finset.range cin, ∑ di ∈ Finset.range kernel, ∑ dj ∈ Finset.range kernel,
    if (stride : ℤ) ∣ (i : ℤ) + padding - di ∧ (stride : ℤ) ∣ (j : ℤ) + padding - dj then
      w.weight c o di dj *
        zeroPadded x b c (((i : ℤ) + padding - di) / stride) (((j : ℤ) + padding - dj) / stride)
    else 0

/-- The parameters of a channel normalisation: `_channel_norm.py:41-43`. -/
structure NormW where
  gamma : ℕ → ℝ
  beta : ℕ → ℝ

/-- `_channel_norm_2d(channels, affine=True)`: `_hific_encoder_decoder.py:15-19` with `_channel_norm.py:30`, `45-54`. -/
noncomputable def channelNorm2d (channels : ℕ) (w : NormW) (x : Image ℝ) : Image ℝ :=
  { x with pix := fun b c i j =>
      let affine : (Fin channels → ℝ) × (Fin channels → ℝ) := (fun k => w.gamma k, fun k => w.beta k)
      let normed := Layers.Norm.channelNorm (1 / 1000) (some affine) fun k => x.pix b k i j
      if h : c < channels then normed ⟨c, h⟩ else 0 }

/-- `nn.ReLU()` (torch). -/
noncomputable def relu (x : Image ℝ) : Image ℝ := { x with pix := fun b c i j => max (x.pix b c i j) 0 }

/-- `x + y` (torch), for tensors of one size. -/
def add (x y : Image ℝ) : Image ℝ := { x with pix := fun b c i j => x.pix b c i j + y.pix b c i j }

/-! ### Encoder -/

/-- The parameters of `HiFiCEncoder`, by number of the block: `_hific_encoder_decoder.py:38-64`. -/
structure EncoderW where
  conv : ℕ → ConvW
  norm : ℕ → NormW

/-- One block of the encoder: `_hific_encoder_decoder.py:40-56`. -/
noncomputable def encoderBlock (w : EncoderW) (index cin cout : ℕ) (x : Image ℝ) : Image ℝ :=
  let x := if index = 0 then conv2d cin 7 1 3 (w.conv index) x else conv2d cin 3 2 1 (w.conv index) x
  relu (channelNorm2d cout (w.norm index) x)

/-- `HiFiCEncoder.forward`: `_hific_encoder_decoder.py:38-67`. -/
noncomputable def encoder (inChannels : ℕ) (w : EncoderW) (x : Image ℝ) : Image ℝ :=
  let x := encoderBlock w 0 inChannels 60 x
  let x := encoderBlock w 1 60 120 x
  let x := encoderBlock w 2 120 240 x
  let x := encoderBlock w 3 240 480 x
  let x := encoderBlock w 4 480 960 x
  conv2d 960 3 1 1 (w.conv 5) x

/-! ### Generator -/

/-- The parameters of a residual block: `_hific_encoder_decoder.py:74-80`. -/
structure ResidualW where
  conv1 : ConvW
  norm1 : NormW
  conv2 : ConvW
  norm2 : NormW

/-- `_ResidualBlock.forward`: `_hific_encoder_decoder.py:74-83`. -/
noncomputable def residualBlock (channels : ℕ) (w : ResidualW) (x : Image ℝ) : Image ℝ :=
  let y := conv2d channels 3 1 1 w.conv1 x
  let y := relu (channelNorm2d channels w.norm1 y)
  let y := conv2d channels 3 1 1 w.conv2 y
  add x (channelNorm2d channels w.norm2 y)

/-- The parameters of `HiFiCGenerator`: `_hific_encoder_decoder.py:107-147`. -/
structure GeneratorW where
  norm0 : NormW
  conv0 : ConvW
  norm1 : NormW
  resid : ℕ → ResidualW
  up : ℕ → ConvW
  upNorm : ℕ → NormW
  last : ConvW

/-- One upsampling block of the generator: `_hific_encoder_decoder.py:123-139`. -/
noncomputable def upBlock (w : GeneratorW) (index cin cout : ℕ) (x : Image ℝ) : Image ℝ :=
  relu (channelNorm2d cout (w.upNorm index) (convTranspose2d cin 3 2 1 1 (w.up index) x))

/-- The residual blocks in a row: `_hific_encoder_decoder.py:115-119`. -/
noncomputable def residBlocks (w : GeneratorW) (n : ℕ) (x : Image ℝ) : Image ℝ :=
  (List.range n).foldl (fun x k => residualBlock 960 (w.resid k) x) x

/-- `HiFiCGenerator.forward`: `_hific_encoder_decoder.py:105-153`. -/
noncomputable def generator (latentFeatures nResidualBlocks : ℕ) (w : GeneratorW) (x : Image ℝ) : Image ℝ :=
  let x := channelNorm2d 960 w.norm1 (conv2d latentFeatures 3 1 1 w.conv0 (channelNorm2d latentFeatures w.norm0 x))
  let x := add x (residBlocks w nResidualBlocks x)
  let x := upBlock w 0 960 480 x
  let x := upBlock w 1 480 240 x
  let x := upBlock w 2 240 120 x
  let x := upBlock w 3 120 60 x
  conv2d 60 7 1 3 w.last x

/-! ### Hyperprior -/

/-- `_conv(cin, _, kernel_size, stride)`: `_hific_autoencoder.py:20-28`. -/
noncomputable def hyperConv (cin kernel stride : ℕ) (w : ConvW) (x : Image ℝ) : Image ℝ :=
  conv2d cin kernel stride (kernel / 2) w x

/-- `_deconv(cin, _)`: `_hific_autoencoder.py:31-44`. -/
noncomputable def hyperDeconv (cin : ℕ) (w : ConvW) (x : Image ℝ) : Image ℝ :=
  convTranspose2d cin 5 2 (5 / 2) 1 w x

/-- `hyper_analysis`: `_hific_autoencoder.py:90-96`. -/
noncomputable def hyperAnalysis (latentFeatures hyperFeatures : ℕ) (w : ℕ → ConvW) (x : Image ℝ) : Image ℝ :=
  let x := relu (hyperConv latentFeatures 3 1 (w 0) x)
  let x := relu (hyperConv hyperFeatures 5 2 (w 1) x)
  hyperConv hyperFeatures 5 2 (w 2) x

/-- `hyper_synthesis_mean` and `hyper_synthesis_scale`: `_hific_autoencoder.py:97-120`. -/
noncomputable def hyperSynthesis (hyperFeatures : ℕ) (w : ℕ → ConvW) (x : Image ℝ) : Image ℝ :=
  let x := relu (hyperDeconv hyperFeatures (w 0) x)
  let x := relu (hyperDeconv hyperFeatures (w 1) x)
  hyperConv hyperFeatures 3 1 (w 2) x

/-! ### The autoencoder -/

/-- All learned parameters: `_hific_autoencoder.py:82-121`. -/
structure Weights where
  encoder : EncoderW
  generator : GeneratorW
  analysis : ℕ → ConvW
  mean : ℕ → ConvW
  scale : ℕ → ConvW
  medians : ℕ → ℝ

/-- The arguments of the constructor that fix the networks: `_hific_autoencoder.py:68-73`. -/
structure Config where
  inChannels : ℕ := 3
  latentFeatures : ℕ := 220
  hyperFeatures : ℕ := 320
  numResidualBlocks : ℕ := 9

/-- A tensor as the input of a network. -/
def _root_.Verif.Models.HificValues.Latent.image (x : Latent) : Image ℝ := ⟨x.size.1, x.size.2, x.val⟩

/-- The output of a network as a latent. -/
def latentOf (x : Image ℝ) : Latent := ⟨(x.height, x.width), x.pix⟩

variable {Str HStr Lik : Type}

/-- Likelihoods and range coders of the bottlenecks of `compressai`: `_hific_autoencoder.py:121-122`. -/
structure Coders (Str HStr Lik : Type) where
  hyperLik : Latent → Lik
  latentLik : Latent → Latent → Latent → Lik
  encodeHyper : Symbols → HStr
  decodeHyper : HStr → ℕ × ℕ → Symbols
  encodeLatent : Symbols → Latent → Str
  decodeLatent : Str → Latent → Symbols

/-- `HiFiCAutoencoder.__init__`: `_hific_autoencoder.py:82-122`. -/
noncomputable def hific (cfg : Config) (w : Weights) (k : Coders Str HStr Lik) : Model Str HStr Lik where
  encoder x := latentOf (encoder cfg.inChannels w.encoder x)
  hyperAnalysis y := latentOf (hyperAnalysis cfg.latentFeatures cfg.hyperFeatures w.analysis y.image)
  synthesisMean z := latentOf (hyperSynthesis cfg.hyperFeatures w.mean z.image)
  synthesisScale z := latentOf (hyperSynthesis cfg.hyperFeatures w.scale z.image)
  generator y := generator cfg.latentFeatures cfg.numResidualBlocks w.generator y.image
  medians := w.medians
  hyperLik := k.hyperLik
  latentLik := k.latentLik
  encodeHyper := k.encodeHyper
  decodeHyper := k.decodeHyper
  encodeLatent := k.encodeLatent
  decodeLatent := k.decodeLatent

end Verif.Models.HificNet
