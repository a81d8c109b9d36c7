import Verif.Models.Hific
import Verif.Round

/-!
Model of the values that `HiFiCAutoencoder` computes: `/repo/neuralcompression/models/_hific_autoencoder.py:221-374`
and `_ste_quantize` of `_hyperprior_autoencoder.py:87-102`, with the quantisation of `compressai` 1.2.4 (pinned at
`/repo/setup.cfg:94`).

Simplifications: real numbers instead of floats; networks, likelihoods and the range coders of `compressai` are
arbitrary functions (the coders work on integer symbols); networks give the same result in training and evaluation mode
(the model has no dropout and no batch statistics); the noise is an input; the 32-bit range of symbols is not modelled.
-/

namespace Verif.Models.HificValues

open Verif Verif.Functional Verif.Models.Hific

/-- A latent: height, width, and the value at (image, channel, row, column). -/
structure Latent where
  size : ℕ × ℕ
  val : ℕ → ℕ → ℕ → ℕ → ℝ

/-- Integer symbols of a latent. -/
structure Symbols where
  size : ℕ × ℕ
  val : ℕ → ℕ → ℕ → ℕ → ℤ

/-- `EntropyModel.quantize(x, "symbols", means)` of `compressai`: called by `compress` at `_hific_autoencoder.py:306`
and `317`. -/
noncomputable def symbols (x means : Latent) : Symbols :=
  ⟨x.size, fun b c i j => roundHalfEven (x.val b c i j - means.val b c i j)⟩

/-- `EntropyModel.dequantize(symbols, means)` of `compressai`: called by `decompress` at `_hific_autoencoder.py:307`,
`359` and `367`. -/
def dequantize (s : Symbols) (means : Latent) : Latent :=
  ⟨s.size, fun b c i j => (s.val b c i j : ℝ) + means.val b c i j⟩

/-- `EntropyModel.quantize(x, "dequantize", means)` of `compressai`: what a bottleneck returns in evaluation mode
(`_hific_autoencoder.py:241`, `248-250`). -/
noncomputable def quantize (x means : Latent) : Latent :=
  ⟨x.size, fun b c i j => (roundHalfEven (x.val b c i j - means.val b c i j) : ℝ) + means.val b c i j⟩

/-- `EntropyModel.quantize(x, "noise")` of `compressai`: what a bottleneck returns in training mode
(`_hific_autoencoder.py:241`, `248-250`). -/
def addNoise (x : Latent) (noise : ℕ → ℕ → ℕ → ℕ → ℝ) : Latent :=
  ⟨x.size, fun b c i j => x.val b c i j + noise b c i j⟩

/-- `_ste_quantize(latent, means)`: `_hyperprior_autoencoder.py:87-102`; `quantize_ste(x)` has the value of
`(round(x) - x) + x`. -/
noncomputable def steQuantize (x means : Latent) : Latent :=
  ⟨x.size, fun b c i j =>
    ((roundHalfEven (x.val b c i j - means.val b c i j) : ℝ) - (x.val b c i j - means.val b c i j)
      + (x.val b c i j - means.val b c i j)) + means.val b c i j⟩

/-- Networks, learned medians, likelihoods and range coders: `_hific_autoencoder.py:82-122`. -/
structure Model (Str HStr Lik : Type) where
  encoder : Image ℝ → Latent
  hyperAnalysis : Latent → Latent
  synthesisMean : Latent → Latent
  synthesisScale : Latent → Latent
  generator : Latent → Image ℝ
  /-- The median of each channel of the hyper-latent. -/
  medians : ℕ → ℝ
  /-- `EntropyBottleneck._likelihood`, given the values. -/
  hyperLik : Latent → Lik
  /-- `GaussianConditional._likelihood`, given values, scales and means. -/
  latentLik : Latent → Latent → Latent → Lik
  /-- The range coder with the tables of the hyper-bottleneck; the decoder is given the size. -/
  encodeHyper : Symbols → HStr
  decodeHyper : HStr → ℕ × ℕ → Symbols
  /-- The range coder with the tables that the scales select. -/
  encodeLatent : Symbols → Latent → Str
  decodeLatent : Str → Latent → Symbols

variable {Str HStr Lik : Type}

/-- `EntropyBottleneck._get_medians` of `compressai`, expanded to a latent of the size. -/
def Model.median (m : Model Str HStr Lik) (size : ℕ × ℕ) : Latent := ⟨size, fun _ c _ _ => m.medians c⟩

/-- The parts that `compress` and `decompress` use: `_hific_autoencoder.py:297-374`. -/
noncomputable def Model.nets (m : Model Str HStr Lik) : Nets Latent Str HStr where
  size := Latent.size
  encoder := m.encoder
  hyperAnalysis := m.hyperAnalysis
  hyperCompress z := m.encodeHyper (symbols z (m.median z.size))
  hyperDecompress s size := dequantize (m.decodeHyper s size) (m.median size)
  synthesisMean := m.synthesisMean
  synthesisScale := m.synthesisScale
  latentCompress y scales means := m.encodeLatent (symbols y means) scales
  latentDecompress s scales means := dequantize (m.decodeLatent s scales) means
  generator := m.generator

/-- `HyperpriorOutput`: `neuralcompression/_outputs/_hyperprior_output.py:11-20` (fields that the model sets). -/
structure Output (Lik : Type) where
  image : Image ℝ
  latent : Latent
  latentLik : Lik
  quantizedLatentLik : Lik
  hyperLatent : Latent
  hyperLik : Lik
  quantizedHyperLik : Lik

/-- `hyper_bottleneck(hyper_latent, training)` of `compressai`, called at `_hific_autoencoder.py:241-245`: values and
likelihoods. -/
noncomputable def Model.hyperBottleneck (m : Model Str HStr Lik) (training : Bool) (noise : ℕ → ℕ → ℕ → ℕ → ℝ)
    (z : Latent) : Latent × Lik :=
  let out := if training then addNoise z noise else quantize z (m.median z.size)
  (out, m.hyperLik out)

/-- `latent_bottleneck(latent, scales, means, training)` of `compressai`, called at `_hific_autoencoder.py:248-254`:
values and likelihoods. -/
noncomputable def Model.latentBottleneck (m : Model Str HStr Lik) (training : Bool) (noise : ℕ → ℕ → ℕ → ℕ → ℝ)
    (y scales means : Latent) : Latent × Lik :=
  let out := if training then addNoise y noise else quantize y means
  (out, m.latentLik out scales means)

/-- The training flags of the model and of its bottlenecks after `train(mode)`: `_hific_autoencoder.py:221-228` with
`205-219`. A frozen bottleneck stays in evaluation mode. -/
def bottleneckTraining (training frozen : Bool) : Bool := if frozen then false else training

/-- `HiFiCAutoencoder.forward` after the guard: `_hific_autoencoder.py:236-273`. `none`: the means do not have the size
of the latent (subtracting them in place raises). -/
noncomputable def Model.forward (m : Model Str HStr Lik) (training frozen : Bool)
    (hyperNoise latentNoise : ℕ → ℕ → ℕ → ℕ → ℝ) (image : Image ℝ) : Option (Output Lik) :=
  let bt := bottleneckTraining training frozen
  let latent := m.encoder image
  let hyper := m.hyperBottleneck bt hyperNoise (m.hyperAnalysis latent)
  let quantizedHyper := m.hyperBottleneck false hyperNoise hyper.1
  let means := m.synthesisMean hyper.1
  let scales := m.synthesisScale hyper.1
  let quantized := m.latentBottleneck bt latentNoise latent scales means
  let evaluated := m.latentBottleneck false latentNoise latent scales means
  let decoded := if training then steQuantize latent means else quantized.1
  if means.size ≠ latent.size then none
  else some
    { image := m.generator decoded
      latent := decoded
      latentLik := quantized.2
      quantizedLatentLik := evaluated.2
      hyperLatent := hyper.1
      hyperLik := hyper.2
      quantizedHyperLik := quantizedHyper.2 }

end Verif.Models.HificValues
