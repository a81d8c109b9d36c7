import Verif.Functional.Pad
import Mathlib.Data.Real.Basic
import Mathlib.Algebra.Order.Group.MinMax

/-!
Model of `/repo/neuralcompression/models/_hific_autoencoder.py`, `_hific_encoder_decoder.py`,
`_hyperprior_autoencoder.py` and of the parts of `_vqvae_xcit_autoencoder.py` about padding and freezing.

Simplifications: networks are arbitrary functions of the sizes that the layers produce; the entropy coders of
`compressai` are arbitrary coders; a module has one device, one training flag and one gradient flag; the batch is not
modelled.
-/

namespace Verif.Models.Hific

open Verif.Functional

/-! ### Sizes -/

/-- The output size of `nn.Conv2d` in one direction (torch). -/
def conv (kernel stride padding n : ℕ) : ℕ := (n + 2 * padding - kernel) / stride + 1

/-- The output size of `nn.ConvTranspose2d` in one direction (torch). -/
def deconv (kernel stride padding outputPadding n : ℕ) : ℕ :=
  (n - 1) * stride + kernel + outputPadding - 2 * padding

/-- `HiFiCEncoder`: `_hific_encoder_decoder.py:38-67`. -/
def encoderSize (n : ℕ) : ℕ :=
  let n := conv 7 1 3 n
  let n := conv 3 2 1 n
  let n := conv 3 2 1 n
  let n := conv 3 2 1 n
  let n := conv 3 2 1 n
  conv 3 1 1 n

/-- `hyper_analysis`: `_hific_autoencoder.py:90-96` with `20-28`. -/
def hyperAnalysisSize (n : ℕ) : ℕ :=
  let n := conv 3 1 1 n
  let n := conv 5 2 2 n
  conv 5 2 2 n

/-- `hyper_synthesis_mean` and `hyper_synthesis_scale`: `_hific_autoencoder.py:97-120` with `31-44`. -/
def hyperSynthesisSize (n : ℕ) : ℕ :=
  let n := deconv 5 2 2 1 n
  let n := deconv 5 2 2 1 n
  conv 3 1 1 n

/-- `HiFiCGenerator`: `_hific_encoder_decoder.py:109-153`; the residual blocks keep the size. -/
def generatorSize (n : ℕ) : ℕ :=
  let n := conv 3 1 1 n
  let n := deconv 3 2 1 1 n
  let n := deconv 3 2 1 1 n
  let n := deconv 3 2 1 1 n
  let n := deconv 3 2 1 1 n
  conv 7 1 3 n

/-- The size of the reconstruction of `forward`, in one direction: `_hific_autoencoder.py:236-263`. `none`: the
means do not have the size of the latent (torch raises). -/
def forwardSize (n : ℕ) : Option ℕ :=
  let latent := encoderSize n
  if hyperSynthesisSize (hyperAnalysisSize latent) ≠ latent then none else some (generatorSize latent)

/-! ### Coding -/

/-- The networks and coders: `_hific_autoencoder.py:82-122`. `Lat` are latents with their height and width, `Str`
and `HStr` strings. -/
structure Nets (Lat Str HStr : Type) where
  size : Lat → ℕ × ℕ
  encoder : Image ℝ → Lat
  hyperAnalysis : Lat → Lat
  hyperCompress : Lat → HStr
  hyperDecompress : HStr → ℕ × ℕ → Lat
  synthesisMean : Lat → Lat
  synthesisScale : Lat → Lat
  /-- `latent_bottleneck.build_indexes` followed by `compress`, given latent, scales and means. -/
  latentCompress : Lat → Lat → Lat → Str
  /-- `latent_bottleneck.build_indexes` followed by `decompress`, given strings, scales and means. -/
  latentDecompress : Str → Lat → Lat → Lat
  generator : Lat → Image ℝ

/-- `HyperpriorCompressedOutput` as made at `_hific_autoencoder.py:319-324`. -/
structure Compressed (Str HStr : Type) where
  latent : Str
  hyperLatent : HStr
  imageSize : ℕ × ℕ
  paddedSize : ℕ × ℕ

variable {Lat Str HStr : Type}

/-- `HiFiCAutoencoder.compress` after the guards: `_hific_autoencoder.py:297-324`. -/
noncomputable def Nets.compress (m : Nets Lat Str HStr) (image : Image ℝ) :
    Except PadErr (Compressed Str HStr) :=
  match padImageToFactor image 64 with
  | .error e => .error e
  | .ok (image, height, width) =>
    let latent := m.encoder image
    let hyperLatent := m.hyperAnalysis latent
    let hyperStrings := m.hyperCompress hyperLatent
    let hyperDecoded := m.hyperDecompress hyperStrings (m.size hyperLatent)
    let means := m.synthesisMean hyperDecoded
    let scales := m.synthesisScale hyperDecoded
    .ok { latent := m.latentCompress latent scales means
          hyperLatent := hyperStrings
          imageSize := (height, width)
          paddedSize := (image.height, image.width) }

/-- `HiFiCAutoencoder.decompress` after the guards: `_hific_autoencoder.py:352-374`. -/
noncomputable def Nets.decompress (m : Nets Lat Str HStr) (c : Compressed Str HStr) : Image ℝ :=
  let latentSize := (c.paddedSize.1 / 2 ^ 4, c.paddedSize.2 / 2 ^ 4)
  let hyperLatentSize := (latentSize.1 / 2 ^ 2, latentSize.2 / 2 ^ 2)
  let hyperDecoded := m.hyperDecompress c.hyperLatent hyperLatentSize
  let means := m.synthesisMean hyperDecoded
  let scales := m.synthesisScale hyperDecoded
  let latent := m.latentDecompress c.latent scales means
  let reconstruction := (m.generator latent).crop c.imageSize.1 c.imageSize.2
  { reconstruction with pix := fun b ch i j => max 0 (min 1 (reconstruction.pix b ch i j)) }

/-! ### Devices and modes -/

/-- The modules: `_hific_autoencoder.py:82-122`. -/
inductive Part where
  | encoder
  | decoder
  | hyperAnalysis
  | synthesisMean
  | synthesisScale
  | hyperBottleneck
  | latentBottleneck
  deriving DecidableEq, Repr

/-- The modules that must be on the CPU for coding: `_hific_autoencoder.py:173-179`, `184-190`. -/
def Part.coding : Part → Bool
  | .encoder => false
  | .decoder => false
  | .hyperAnalysis => true
  | .synthesisMean => true
  | .synthesisScale => true
  | .hyperBottleneck => true
  | .latentBottleneck => true

/-- Whether a module has parameters: the conditional Gaussian has buffers only. -/
def Part.hasParams : Part → Bool
  | .latentBottleneck => false
  | _ => true

/-- All modules. -/
def parts : List Part :=
  [.encoder, .decoder, .hyperAnalysis, .synthesisMean, .synthesisScale, .hyperBottleneck, .latentBottleneck]

/-- A device. -/
inductive Device where
  | cpu
  | gpu (k : ℕ)
  deriving DecidableEq, Repr

/-- What the code raises. -/
inductive Err where
  | value
  | runtime
  deriving DecidableEq, Repr

/-- The state of the model that the guards look at. `params` stands for the values of the parameters (a training step
makes them new), `tables` for the parameters that the coding tables were computed from. -/
structure State where
  device : Part → Device
  mode : String
  params : ℕ
  tables : Option ℕ

/-- A new model: `_hyperprior_autoencoder.py:32-35`. -/
def State.init : State where
  device := fun _ => .cpu
  mode := "forward"
  params := 0
  tables := none

/-- `model.to(device)` (torch). -/
def State.to (s : State) (d : Device) : State := { s with device := fun _ => d }

/-- `CompressionModel.update(force)` of `compressai`: existing tables are kept unless forced. -/
def State.update (s : State) (force : Bool := false) : State :=
  { s with tables := if s.tables.isSome && !force then s.tables else some s.params }

/-- `_set_devices_for_compress`: `_hific_autoencoder.py:173-179`. -/
def State.setDevicesForCompress (s : State) : State :=
  { s with device := fun p => if p.coding then .cpu else s.device p }

/-- `update_tensor_devices`: `_hific_autoencoder.py:151-171`. The error leaves the state as it is. -/
def State.updateTensorDevices (s : State) (target : String) : Except Err State :=
  if ¬ (target = "forward" ∨ target = "compress") then .error .value
  else
    let s' := if target = "forward" then s.to (s.device .encoder) else s.update.setDevicesForCompress
    .ok { s' with mode := target }

/-- `_on_cpu`: `_hyperprior_autoencoder.py:127-132`. -/
def State.onCpu (s : State) : Bool := parts.all fun p => !p.hasParams || s.device p == .cpu

/-- `_check_compress_devices`: `_hific_autoencoder.py:181-195`. -/
def State.checkCompressDevices (s : State) : Bool :=
  parts.all fun p => !p.coding || !p.hasParams || s.device p == .cpu

/-- The guard of `forward`: `_hific_autoencoder.py:231-234`. -/
def State.guardForward (s : State) : Except Err Unit :=
  if ¬ s.mode = "forward" then .error .runtime else .ok ()

/-- The guards of `compress` and `decompress`: `_hific_autoencoder.py:286-295`, `337-346`; and `compressai`'s refusal
to code without tables. -/
def State.guardCoding (s : State) (forceCpu : Bool := true) : Except Err Unit := do
  if ¬ s.onCpu then
    if forceCpu then .error .value
    if ¬ s.checkCompressDevices then .error .value
  if s.tables = none then .error .value
  return ()

/-- What a user does. -/
inductive Op where
  | to (d : Device)
  | switch (target : String)
  | update (force : Bool)
  /-- A training step changes the parameters; it needs `forward`. -/
  | train
  deriving Repr

/-- An operation; those that raise leave the state as it is. -/
def State.apply (s : State) : Op → State
  | .to d => s.to d
  | .switch target => match s.updateTensorDevices target with
    | .ok s' => s'
    | .error _ => s
  | .update force => s.update force
  | .train => match s.guardForward with
    | .ok () => { s with params := s.params + 1 }
    | .error _ => s

/-! ### Parameter groups -/

/-- A named parameter: name and whether it is trainable. -/
structure Param where
  name : String
  requiresGrad : Bool
  deriving DecidableEq, Repr

/-- `n.endswith(".quantiles")`. -/
def isQuantile (p : Param) : Bool := ".quantiles".toList.isSuffixOf p.name.toList

/-- `collect_parameters`: `_hyperprior_autoencoder.py:44-85`. Names are unique (torch), so the dictionaries are the
filtered lists; `none` is the `RuntimeError`. -/
def collectParameters (params : List Param) : Option (List Param × List Param) :=
  let model := params.filter fun p => !isQuantile p && p.requiresGrad
  let quantile := params.filter fun p => isQuantile p && p.requiresGrad
  let modelKeys := model.map Param.name
  let quantileKeys := quantile.map Param.name
  let paramsKeys := (params.filter fun p => p.requiresGrad).map Param.name
  let inter := modelKeys.filter fun k => quantileKeys.contains k
  let union := modelKeys ++ quantileKeys
  if inter.length ≠ 0 ∨ ¬ (union.all (fun k => paramsKeys.contains k) ∧ paramsKeys.all fun k => union.contains k) then none
  else some (model, quantile)

/-- `DvcStage.collect_parameters`: `projects/deep_video_compression/_utils.py:34-46`. -/
def collectDvc (params : List Param) : List Param × List Param :=
  (params.filter fun p => !isQuantile p && p.requiresGrad, params.filter fun p => isQuantile p && p.requiresGrad)

/-- `DvcStage1.collect_parameters`: `projects/deep_video_compression/_utils.py:71-77`. -/
def collectDvcStage1 (params : List Param) : List Param × Option (List Param) :=
  (params.filter fun p => !isQuantile p && p.requiresGrad, none)

/-! ### Freezing -/

/-- The flags that freezing changes: `_hific_autoencoder.py:79-80`. -/
structure Flags where
  frozenEncoder : Bool
  frozenBottleneck : Bool
  training : Part → Bool
  requiresGrad : Part → Bool

/-- A new model is in training mode and trainable; `freeze_encoder` and `freeze_bottleneck` are arguments of the
constructor: `_hific_autoencoder.py:78-80`, `124-127`. -/
def Flags.fresh : Flags where
  frozenEncoder := false
  frozenBottleneck := false
  training := fun _ => true
  requiresGrad := fun _ => true

/-- `freeze_encoder`: `_hific_autoencoder.py:197-203`. -/
def Flags.freezeEncoder (f : Flags) : Flags :=
  { f with
    frozenEncoder := true
    training := fun p => if p = .encoder then false else f.training p
    requiresGrad := fun p => if p = .encoder then false else f.requiresGrad p }

/-- `freeze_bottleneck`: `_hific_autoencoder.py:205-219`. -/
def Flags.freezeBottleneck (f : Flags) : Flags :=
  { f with
    frozenBottleneck := true
    training := fun p => if p.coding then false else f.training p
    requiresGrad := fun p => if p.coding then false else f.requiresGrad p }

/-- `train`: `_hific_autoencoder.py:221-228`; `eval()` is `train(False)` (torch). -/
def Flags.train (f : Flags) (mode : Bool) : Flags :=
  let f : Flags := { f with training := fun _ => mode }
  let f := if f.frozenEncoder then f.freezeEncoder else f
  if f.frozenBottleneck then f.freezeBottleneck else f

/-- The constructor: `_hific_autoencoder.py:68-127`. -/
def Flags.init (freezeEncoder freezeBottleneck : Bool) : Flags :=
  let f := Flags.fresh
  let f := if freezeEncoder then f.freezeEncoder else f
  if freezeBottleneck then f.freezeBottleneck else f

/-- What a user does. -/
inductive FlagOp where
  | freezeEncoder
  | freezeBottleneck
  | train (mode : Bool)
  deriving DecidableEq, Repr

/-- An operation. -/
def Flags.apply (f : Flags) : FlagOp → Flags
  | .freezeEncoder => f.freezeEncoder
  | .freezeBottleneck => f.freezeBottleneck
  | .train mode => f.train mode

/-! ### The VQ-VAE autoencoder -/

/-- The padding of `VqVaeXCiTAutoencoder.forward` in one direction (Python's `%`): `_vqvae_xcit_autoencoder.py:540-545`. -/
def vqvaePad (factor n : ℕ) : ℤ := ((factor : ℤ) - ((n : ℤ) - factor)) % factor

/-- The state of the VQ-VAE's frozen part: whether it was asked to be frozen, its training flag and gradient flag:
`_vqvae_xcit_autoencoder.py:480-481`. -/
structure VqFlags where
  freeze : Bool
  training : Bool
  requiresGrad : Bool

/-- The constructor: `_vqvae_xcit_autoencoder.py:480`, `511-522`. -/
def VqFlags.init (freeze : Bool) : VqFlags :=
  if freeze then ⟨true, false, false⟩ else ⟨false, true, true⟩

/-- The start of `forward`: `_vqvae_xcit_autoencoder.py:527-537`. The result is also the flags with which the part
runs. -/
def VqFlags.forward (f : VqFlags) : VqFlags :=
  if f.freeze then { f with training := false, requiresGrad := false } else f

/-- `train` is torch's. -/
def VqFlags.train (f : VqFlags) (mode : Bool) : VqFlags := { f with training := mode }

/-- What happens to the part. -/
inductive VqOp where
  | forward
  | train (mode : Bool)

/-- An operation. -/
def VqFlags.apply (f : VqFlags) : VqOp → VqFlags
  | .forward => f.forward
  | .train mode => f.train mode

end Verif.Models.Hific
