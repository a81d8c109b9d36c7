import Verif.Models.DvcNets
import Verif.Models.HificNet
import Verif.Models.UnetNet
import Verif.Functional.Warp
import Verif.Round
import Mathlib.Data.Real.Archimedean

/-!
Model of the values that the networks and `forward`, `compress` and `decompress` of
`/repo/neuralcompression/models/deep_video_compression.py` compute, for all settings of the parts and all weights, on batches
of images.  The layers, their shapes and what raises are those of `Models/DvcNets.lean`.

Simplifications: real numbers instead of floats; the range coder of `compressai` (1.2.4) is an arbitrary pair of functions on
lists of integers with the numbers of their tables; the likelihood of a value is an arbitrary function of its channel and the
value; a bottleneck of one channel codes only latents of one channel (`compressai` broadcasts one channel in `forward`, as
here, but would read tables that do not exist in `compress`).
-/

namespace Verif.Models.DvcValues

open Verif Verif.Functional Verif.Models.DvcNets
open Verif.Models.HificNet (ConvW conv2d convTranspose2d relu)
open Verif.Models.UnetNet (BatchW batchNorm)

/-- A tensor: its shape, and the value at (image, channel, row, column). -/
structure Tensor where
  shape : Shape
  val : ℕ → ℕ → ℕ → ℕ → ℝ

/-- The same without batch and channels. -/
def Tensor.image (t : Tensor) : Image ℝ := ⟨t.shape.h, t.shape.w, t.val⟩

/-- The parameters of a layer, whatever its type: `deep_video_compression.py:349-361`, `435-447`; `_simplified_gdn.py:57-60`. -/
structure LayerW where
  weight : ℕ → ℕ → ℕ → ℕ → ℝ
  bias : ℕ → ℝ
  gamma : ℕ → ℕ → ℝ
  beta : ℕ → ℝ
  norm : BatchW

/-- The parameters of a convolution; without a bias there is nothing to add (torch). -/
def LayerW.conv (w : LayerW) (bias : Bool) : ConvW := ⟨w.weight, if bias then w.bias else fun _ => 0⟩

/-- The parameters of `SimplifiedGDN(c)` or `SimplifiedInverseGDN(c)`: `_simplified_gdn.py:55-61`, `102-108`. -/
noncomputable def LayerW.gdn (w : LayerW) (c : ℕ) : Layers.Norm.Gdn c := ⟨fun i j => w.gamma i j, fun i => w.beta i, 1e-6⟩

/-- `SimplifiedGDN.forward` and `SimplifiedInverseGDN.forward` at all pixels: `_simplified_gdn.py:63-77`, `110-124`. -/
noncomputable def gdnValue (inverse : Bool) (c : ℕ) (w : LayerW) (t : Tensor) (b k i j : ℕ) : ℝ :=
  let pixel : Fin c → ℝ := fun l => t.val b l i j
  if h : k < c then
    (if inverse then (w.gdn c).inverse pixel else (w.gdn c).forward pixel).2 ⟨k, h⟩
  else 0

/-- The values that a layer gives; `inverse` says which of the two GDN layers it is: `deep_video_compression.py:359`, `445`. -/
noncomputable def values (training inverse : Bool) (l : Layer) (w : LayerW) (t : Tensor) : ℕ → ℕ → ℕ → ℕ → ℝ :=
  match l with
  | .conv cin _ kernel stride padding bias => (conv2d cin kernel stride padding (w.conv bias) t.image).pix
  | .convT cin _ kernel stride padding bias => (convTranspose2d cin kernel stride padding 0 (w.conv bias) t.image).pix
  | .gdn c => gdnValue inverse c w t
  | .batchNorm _ => (batchNorm ⟨training, t.shape.n⟩ w.norm t.image).pix
  | .relu => (relu t.image).pix

/-- A layer that does not get a requested size (torch). -/
noncomputable def run (training inverse : Bool) (l : Layer) (w : LayerW) (t : Tensor) : Except Err Tensor := do
  let s ← l.apply training t.shape
  return ⟨s, values training inverse l w t⟩

/-- `nn.Sequential` from layer number `k` on. -/
noncomputable def runAll (training : Bool) (w : ℕ → LayerW) : ℕ → List Layer → Tensor → Except Err Tensor
  | _, [], t => .ok t
  | k, l :: rest, t => do
    let t ← run training false l (w k) t
    runAll training w (k + 1) rest t

/-! ### Encoder and decoder -/

/-- `DVCCompressionEncoder.forward`, the loop from layer number `k` on: `deep_video_compression.py:463-472`. -/
noncomputable def encodeLoop (training : Bool) (w : ℕ → LayerW) :
    ℕ → List Layer → Tensor → List Shape → Except Err (Tensor × List Shape)
  | _, [], t, sizes => .ok (t, sizes)
  | k, l :: rest, t, sizes => do
    let sizes := match l with
      | .conv .. => sizes ++ [t.shape]
      | _ => sizes
    let t ← run training false l (w k) t
    encodeLoop training w (k + 1) rest t sizes

/-- `DVCCompressionEncoder.forward`: `deep_video_compression.py:463-472`. -/
noncomputable def encode (k : Coder) (training : Bool) (w : ℕ → LayerW) (t : Tensor) : Except Err (Tensor × List Shape) :=
  encodeLoop training w 0 k.encoder t []

/-- A transposed convolution with a requested size: the additional rows and columns are computed like all others (torch's
`output_padding`). -/
noncomputable def runSized (training : Bool) (l : Layer) (w : LayerW) (t : Tensor) (wanted : Shape) : Except Err Tensor := do
  let s ← applySized l t.shape wanted
  return ⟨s, values training true l w t⟩

/-- The deconvolutions with sizes, from layer number `k` on: `deep_video_compression.py:393-398`. -/
noncomputable def decodeLoop (training : Bool) (w : ℕ → LayerW) : ℕ → List Layer → Tensor → List Shape → Except Err Tensor
  | _, [], t, _ => .ok t
  | k, l :: rest, t, sizes =>
    if l.isConvT then
      match sizes.getLast? with
      | none => .error .runtime
      | some wanted => do
        let t ← runSized training l (w k) t wanted
        decodeLoop training w (k + 1) rest t sizes.dropLast
    else do
      let t ← run training true l (w k) t
      decodeLoop training w (k + 1) rest t sizes

/-- `DVCCompressionDecoder.forward` with sizes, as `DVC` calls it: `deep_video_compression.py:377-400`. -/
noncomputable def decode (k : Coder) (training : Bool) (w : ℕ → LayerW) (t : Tensor) (sizes : List Shape) : Except Err Tensor :=
  if (k.decoder.filter Layer.isConvT).length ≠ sizes.length then .error .value
  else decodeLoop training w 0 k.decoder t sizes

/-! ### Tensor operations -/

/-- The value that broadcasting (torch) reads. -/
def Tensor.at (t : Tensor) (b c i j : ℕ) : ℝ :=
  t.val (if t.shape.n = 1 then 0 else b) (if t.shape.c = 1 then 0 else c) (if t.shape.h = 1 then 0 else i)
    (if t.shape.w = 1 then 0 else j)

/-- An elementwise operation with broadcasting (torch). -/
def elementwise (f : ℝ → ℝ → ℝ) (x y : Tensor) : Except Err Tensor := do
  let s ← broadcast x.shape y.shape
  return ⟨s, fun b c i j => f (x.at b c i j) (y.at b c i j)⟩

/-- `torch.cat((x, y, z), dim=1)`. -/
def cat3 (x y z : Tensor) : Except Err Tensor := do
  let s ← concat3 x.shape y.shape z.shape
  return ⟨s, fun b c i j =>
    if c < x.shape.c then x.val b c i j
    else if c < x.shape.c + y.shape.c then y.val b (c - x.shape.c) i j
    else z.val b (c - x.shape.c - y.shape.c) i j⟩

/-- `F.avg_pool2d(image, 2)`. -/
noncomputable def pool (t : Tensor) : Except Err Tensor := do
  let s ← avgPool t.shape
  return ⟨s, fun b c i j => (t.val b c (2 * i) (2 * j) + t.val b c (2 * i) (2 * j + 1) + t.val b c (2 * i + 1) (2 * j)
    + t.val b c (2 * i + 1) (2 * j + 1)) / 4⟩

/-- The position that a resized row or column is read from, `align_corners=False` (torch): never before the first. -/
noncomputable def sourcePos (size newSize i : ℕ) : ℝ := max 0 ((i + 1 / 2) * (size / newSize) - 1 / 2)

/-- The row or column before that position, and the one after it, which for the last is the last itself (torch). -/
noncomputable def sourceRow (size newSize i : ℕ) : ℕ × ℕ :=
  let low := ⌊sourcePos size newSize i⌋₊
  (low, if low + 1 < size then low + 1 else low)

/-- `F.interpolate(t, (h, w), mode="bilinear")`. -/
noncomputable def resizeBilinear (t : Tensor) (h w : ℕ) : Except Err Tensor := do
  let s ← resize t.shape h w
  return ⟨s, fun b c i j =>
    let (i0, i1) := sourceRow t.shape.h h i
    let (j0, j1) := sourceRow t.shape.w w j
    let y := sourcePos t.shape.h h i - i0
    let x := sourcePos t.shape.w w j - j0
    (1 - y) * ((1 - x) * t.val b c i0 j0 + x * t.val b c i0 j1) + y * ((1 - x) * t.val b c i1 j0 + x * t.val b c i1 j1)⟩

/-- `F.interpolate(t, size=(h, w), mode="nearest")`. -/
def resizeNearest (t : Tensor) (h w : ℕ) : Except Err Tensor := do
  let s ← resize t.shape h w
  return ⟨s, fun b c i j => t.val b c (i * t.shape.h / h) (j * t.shape.w / w)⟩

/-- `dense_image_warp(image, flow.permute(0, 2, 3, 1))`: `deep_video_compression.py:198`, `237`, `299`, `573`, `581`. -/
noncomputable def warpTensor (image flow : Tensor) : Except Err Tensor :=
  match Warp.denseImageWarp ⟨image.shape.n, image.shape.c, image.shape.h, image.shape.w, image.val⟩
      ⟨flow.shape.n, flow.shape.h, flow.shape.w, flow.shape.c, fun b i j k => flow.val b k i j⟩ with
  | .error .value => .error .value
  | .error .runtime => .error .runtime
  | .ok r => .ok ⟨⟨r.batch, r.channels, r.height, r.width⟩, r.pix⟩

/-! ### Flow estimation -/

/-- `_decompose_images_to_pyramids` for one image, from fine to coarse: `deep_video_compression.py:524-534`. -/
noncomputable def pyramidOf : ℕ → Tensor → Except Err (List Tensor)
  | 0, t => .ok [t]
  | k + 1, t => do
    let small ← pool t
    let rest ← pyramidOf k small
    return t :: rest

/-- The loop over the levels, from level number `k` on and from coarse to fine: `deep_video_compression.py:567-582`. -/
noncomputable def flowLoop (e : Estimator) (training : Bool) (w : ℕ → ℕ → LayerW) :
    ℕ → List (Tensor × Tensor) → Tensor → List (Tensor × Tensor) → Except Err (Tensor × List (Tensor × Tensor))
  | _, [], flow, pairs => .ok (flow, pairs)
  | k, (image1, image2) :: rest, flow, pairs => do
    let flow ← resizeBilinear flow image1.shape.h image1.shape.w
    let warped ← warpTensor image1 flow
    let input ← cat3 warped image2 flow
    let update ← runAll training (w k) 0 e.level input
    let flow ← elementwise (· + ·) flow update
    let warped ← warpTensor image1 flow
    flowLoop e training w (k + 1) rest flow (pairs ++ [(warped, image2)])

/-- `calculate_flow_with_image_pairs`: `deep_video_compression.py:558-586`. -/
noncomputable def estimate (e : Estimator) (training : Bool) (w : ℕ → ℕ → LayerW) (image1 image2 : Tensor) :
    Except Err (Tensor × List (Tensor × Tensor)) :=
  if image1.shape ≠ image2.shape then .error .value
  else do
    let images1 ← pyramidOf (e.levels - 1) image1
    let images2 ← pyramidOf (e.levels - 1) image2
    let coarse := (images1.getLast?.getD image1).shape
    let flow : Tensor := ⟨{ coarse with c := min coarse.c 2 }, fun _ _ _ _ => 0⟩
    flowLoop e training w 0 ((images1.zip images2).reverse.take e.levels) flow []

/-! ### Motion compensation -/

/-- The parameters of the two convolutions of a residual block: `deep_video_compression.py:744-763`. -/
structure BlockW where
  first : LayerW
  second : LayerW

/-- `_ResidualBlock.forward` with the default kernel and stride: `deep_video_compression.py:734-766`. -/
noncomputable def residualBlock (cin cout : ℕ) (training : Bool) (w : BlockW) (t : Tensor) : Except Err Tensor := do
  let y ← runAll training (fun k => if k = 1 then w.first else w.second) 0
    [.relu, .conv cin cin 3 1 1 true, .relu, .conv cin cout 3 1 1 true] t
  elementwise (· + ·) t y

/-- `_MotionCompensationLayer.forward` of a nest of so many layers, the innermost being number 1:
`deep_video_compression.py:704-719`. -/
noncomputable def unet (channels : ℕ) (training : Bool) (w : ℕ → BlockW × BlockW) : ℕ → Tensor → Except Err Tensor
  | 0, t => .ok t
  | k + 1, t => do
    let image ← residualBlock channels channels training (w (k + 1)).1 t
    let image ← match k with
      | 0 => .ok image
      | k + 1 => do
        let small ← pool image
        let child ← unet channels training w (k + 1) small
        let up ← resizeNearest child t.shape.h t.shape.w
        elementwise (· + ·) image up
    residualBlock channels channels training (w (k + 1)).2 image

/-- The parameters of `DVCMotionCompensationModel`: `deep_video_compression.py:632-669`. -/
structure CompensatorW where
  input : ℕ → LayerW
  blocks : ℕ → BlockW × BlockW
  output : ℕ → LayerW

/-- `DVCMotionCompensationModel.forward`: `deep_video_compression.py:671-672`. -/
noncomputable def compensate (m : Compensator) (training : Bool) (w : CompensatorW) (image1 image2 flow : Tensor) :
    Except Err Tensor := do
  let t ← cat3 image1 image2 flow
  let t ← runAll training w.input 0 m.input t
  let t ← unet m.modelChannels training w.blocks m.levels t
  runAll training w.output 0 m.output t

/-! ### Entropy bottlenecks -/

/-- What is learnt by `EntropyBottleneck` (compressai), and the range coder with its tables: a symbol comes with the number of
its table. -/
structure Bottleneck (Str : Type) where
  median : ℕ → ℝ
  lik : ℕ → ℝ → ℝ
  encode : List (ℕ × ℤ) → Str
  decode : Str → List ℕ → List ℤ

variable {Str : Type}

/-- The channel of the bottleneck for a channel of the latent, when one channel is broadcast over all. -/
def chan (channels c : ℕ) : ℕ := if channels = 1 then 0 else c

/-- `EntropyBottleneck.forward` (compressai), called at `deep_video_compression.py:295`, `307`: noise in training, rounding
about the median in evaluation; and the likelihoods. -/
noncomputable def Bottleneck.forward (k : Bottleneck Str) (channels : ℕ) (training : Bool) (noise : ℕ → ℕ → ℕ → ℕ → ℝ)
    (t : Tensor) : Except Err (Tensor × Tensor) := do
  let (s, s') ← bottleneck channels t.shape
  let v : ℕ → ℕ → ℕ → ℕ → ℝ := fun b c i j =>
    if training then t.val b c i j + noise b c i j
    else (roundHalfEven (t.val b c i j - k.median (chan channels c)) : ℝ) + k.median (chan channels c)
  return (⟨s, v⟩, ⟨s', fun b c i j => k.lik (chan channels c) (v b c i j)⟩)

/-- The numbers of the tables for `reshape(-1)` of a latent: `_build_indexes` (compressai). -/
def indexes (c h w : ℕ) : List ℕ := (List.range (c * h * w)).map fun p => p / (h * w)

/-- `EntropyBottleneck.compress` (compressai), called at `deep_video_compression.py:191`, `206`: a string per image, from its
symbols in the order of `reshape(-1)`. -/
noncomputable def Bottleneck.compress (k : Bottleneck Str) (channels : ℕ) (t : Tensor) : Except Err (List Str) :=
  let s := t.shape
  if s.c ≠ channels then .error .runtime
  else .ok ((List.range s.n).map fun b => k.encode ((List.range (s.c * s.h * s.w)).map fun p =>
    let c := p / (s.h * s.w)
    (c, roundHalfEven (t.val b c (p / s.w % s.h) (p % s.w) - k.median c))))

/-- `EntropyBottleneck.decompress(strings, size)` (compressai), called at `deep_video_compression.py:192-194`, `231-233`,
`247-249`. -/
noncomputable def Bottleneck.decompress (k : Bottleneck Str) (channels : ℕ) (strings : List Str) (h w : ℕ) : Tensor :=
  ⟨⟨strings.length, channels, h, w⟩, fun b c i j =>
    match strings[b]? with
    | none => 0
    | some string => ((k.decode string (indexes channels h w)).getD ((c * h + i) * w + j) 0 : ℝ) + k.median c⟩

/-! ### The whole model -/

/-- The parameters of all parts of `DVC`: `deep_video_compression.py:118-171`. -/
structure Weights (Str : Type) where
  estimator : ℕ → ℕ → LayerW
  motionEncoder : ℕ → LayerW
  motionBottleneck : Bottleneck Str
  motionDecoder : ℕ → LayerW
  compensation : CompensatorW
  residualEncoder : ℕ → LayerW
  residualBottleneck : Bottleneck Str
  residualDecoder : ℕ → LayerW

/-- `DVCTrainOutput`: `deep_video_compression.py:46-64`. -/
structure Output where
  flow : Tensor
  image2 : Tensor
  residual : Tensor
  flowProbabilities : Tensor
  residualProbabilities : Tensor

/-- The two lines that predict the second image from the first and a decoded flow: `deep_video_compression.py:198-201`,
`237-240`, `299-302`. -/
noncomputable def predict (m : Model) (w : Weights Str) (training : Bool) (image1 flow : Tensor) : Except Err Tensor := do
  let est ← warpTensor image1 flow
  compensate m.compensation training w.compensation image1 est flow

/-- `DVC.forward`: `deep_video_compression.py:291-314`; `noise1` and `noise2` are the noise of the two bottlenecks. -/
noncomputable def forward (m : Model) (w : Weights Str) (training : Bool) (noise1 noise2 : ℕ → ℕ → ℕ → ℕ → ℝ)
    (image1 image2 : Tensor) : Except Err Output := do
  let (flow, _) ← estimate m.estimator training w.estimator image1 image2
  let (flow, sizes) ← encode m.motionEncoder training w.motionEncoder flow
  let (flow, flowProbabilities) ← w.motionBottleneck.forward m.motionBottleneck training noise1 flow
  let flow ← decode m.motionDecoder training w.motionDecoder flow sizes
  let est ← predict m w training image1 flow
  let residual ← elementwise (· - ·) image2 est
  let (residual, sizes) ← encode m.residualEncoder training w.residualEncoder residual
  let (residual, residualProbabilities) ← w.residualBottleneck.forward m.residualBottleneck training noise2 residual
  let residual ← decode m.residualDecoder training w.residualDecoder residual sizes
  let est ← elementwise (· + ·) est residual
  return ⟨flow, est, residual, flowProbabilities, residualProbabilities⟩

/-- `CompressedPFrame`: `deep_video_compression.py:27-43`. -/
structure PFrame (Str : Type) where
  flow : List Str
  flowSizes : List Shape
  residual : List Str
  residualSizes : List Shape

/-- `DVC.compress`: `deep_video_compression.py:187-213`, in evaluation mode (or with parts that have no batch
normalisation). -/
noncomputable def compress (m : Model) (w : Weights Str) (image1 image2 : Tensor) : Except Err (PFrame Str) := do
  let (flow, _) ← estimate m.estimator false w.estimator image1 image2
  let (latent, flowSizes) ← encode m.motionEncoder false w.motionEncoder flow
  let compressedFlow ← w.motionBottleneck.compress m.motionBottleneck latent
  let latent := w.motionBottleneck.decompress m.motionBottleneck compressedFlow latent.shape.h latent.shape.w
  let flow ← decode m.motionDecoder false w.motionDecoder latent flowSizes
  let est ← predict m w false image1 flow
  let residual ← elementwise (· - ·) image2 est
  let (latent, residualSizes) ← encode m.residualEncoder false w.residualEncoder residual
  let compressedResidual ← w.residualBottleneck.compress m.residualBottleneck latent
  return ⟨compressedFlow, flowSizes, compressedResidual, residualSizes⟩

/-- The size that `decompress` asks the bottleneck for: `deep_video_compression.py:227-230`, `243-246`.  An empty list has no
last entry (`IndexError`, here `runtime`); the lists of an encoder are not empty. -/
def asked (sizes : List Shape) : Except Err (ℕ × ℕ) :=
  match sizes.getLast? with
  | none => .error .runtime
  | some s => .ok (s.h / 2, s.w / 2)

/-- `DVC.decompress`: `deep_video_compression.py:227-254`. -/
noncomputable def decompress (m : Model) (w : Weights Str) (image1 : Tensor) (p : PFrame Str) : Except Err Tensor := do
  let size ← asked p.flowSizes
  let latent := w.motionBottleneck.decompress m.motionBottleneck p.flow size.1 size.2
  let flow ← decode m.motionDecoder false w.motionDecoder latent p.flowSizes
  let est ← predict m w false image1 flow
  let size ← asked p.residualSizes
  let latent := w.residualBottleneck.decompress m.residualBottleneck p.residual size.1 size.2
  let residual ← decode m.residualDecoder false w.residualDecoder latent p.residualSizes
  let est ← elementwise (· + ·) est residual
  return { est with val := fun b c i j => min 1 (max 0 (est.val b c i j)) }

end Verif.Models.DvcValues
