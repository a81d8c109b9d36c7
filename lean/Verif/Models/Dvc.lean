import Mathlib.Data.Real.Basic
import Mathlib.Algebra.Order.Group.MinMax

/-!
Model of `/repo/neuralcompression/models/deep_video_compression.py`: the sizes that flow through the convolutional
encoder and decoder, the flow pyramid and the motion compensation, and the coding of P-frames.

Simplifications: sizes are one- or two-dimensional numbers (batch and channels do not matter); the networks are
arbitrary functions; floats are real numbers.
-/

namespace Verif.Models.Dvc

/-- What the code raises. -/
inductive Err where
  /-- `ValueError`. -/
  | value
  /-- `RuntimeError` of torch (an image too small for a layer). -/
  | runtime
  deriving DecidableEq, Repr

/-! ### Convolutional encoder and decoder -/

/-- The arguments of the encoder and decoder that determine sizes: `deep_video_compression.py:332-341`, `418-427`.
The default kernel is 3 for flows and 5 for residuals (`121-169`). -/
structure Conf where
  kernel : ℕ := 3
  stride : ℕ := 2
  layers : ℕ := 4

/-- `padding = kernel_size // 2`: `deep_video_compression.py:343`, `429`. -/
def Conf.padding (c : Conf) : ℕ := c.kernel / 2

/-- The number of convolutions: `deep_video_compression.py:347-375`, `433-461`. -/
def Conf.convs (c : Conf) : ℕ := (c.layers - 1) + 1

/-- The output size of `nn.Conv2d` in one direction (torch); it raises if the padded image is smaller than the
kernel. -/
def Conf.conv (c : Conf) (n : ℕ) : Except Err ℕ :=
  if n + 2 * c.padding < c.kernel then .error .runtime else .ok ((n + 2 * c.padding - c.kernel) / c.stride + 1)

/-- The output size of `nn.ConvTranspose2d` in one direction when the caller asks for a size (torch's
`_output_padding`): `ValueError` if it is not among the sizes that the stride can produce. -/
def Conf.convT (c : Conf) (n : ℕ) (wanted : ℕ) : Except Err ℕ :=
  let smallest : ℤ := ((n : ℤ) - 1) * c.stride - 2 * c.padding + c.kernel
  if (wanted : ℤ) < smallest ∨ smallest + c.stride - 1 < wanted then .error .value else .ok wanted

/-- A size in both directions. -/
abbrev Size := ℕ × ℕ

/-- A convolution in both directions. -/
def Conf.conv2 (c : Conf) (n : Size) : Except Err Size := do
  let a ← c.conv n.1
  let b ← c.conv n.2
  return (a, b)

/-- A transposed convolution in both directions. -/
def Conf.convT2 (c : Conf) (n : Size) (wanted : Size) : Except Err Size := do
  let a ← c.convT n.1 wanted.1
  let b ← c.convT n.2 wanted.2
  return (a, b)

/-- The loop of `DVCCompressionEncoder.forward`: `deep_video_compression.py:463-472`. The normalisation layers keep
the size. -/
def Conf.encodeLoop (c : Conf) : ℕ → Size → List Size → Except Err (Size × List Size)
  | 0, n, sizes => .ok (n, sizes)
  | k + 1, n, sizes => do
    let m ← c.conv2 n
    c.encodeLoop k m (sizes ++ [n])

/-- `DVCCompressionEncoder.forward`: the size of the latent and the logged sizes. -/
def Conf.encode (c : Conf) (n : Size) : Except Err (Size × List Size) := c.encodeLoop c.convs n []

/-- The loop of `DVCCompressionDecoder.forward`: `deep_video_compression.py:393-398`; `output_sizes.pop()` takes the
last entry. -/
def Conf.decodeLoop (c : Conf) : ℕ → Size → List Size → Except Err Size
  | 0, n, _ => .ok n
  | k + 1, n, sizes => do
    let m ← c.convT2 n (sizes.getLast?.getD (0, 0))
    c.decodeLoop k m sizes.dropLast

/-- `DVCCompressionDecoder.forward` with sizes: `deep_video_compression.py:377-400`. -/
def Conf.decode (c : Conf) (n : Size) (sizes : List Size) : Except Err Size :=
  if sizes.length ≠ c.convs then .error .value else c.decodeLoop c.convs n sizes

/-- The latent size that `decompress` asks of the entropy bottleneck: `deep_video_compression.py:227-230`,
`243-246`. -/
def askedSize (sizes : List Size) : Size :=
  let s := sizes.getLast?.getD (0, 0)
  (s.1 / 2, s.2 / 2)

/-! ### Flow pyramid and motion compensation -/

/-- `F.avg_pool2d(image, 2)`: it raises when the result would be empty. -/
def pool (n : Size) : Except Err Size :=
  if n.1 / 2 = 0 ∨ n.2 / 2 = 0 then .error .runtime else .ok (n.1 / 2, n.2 / 2)

/-- `_decompose_images_to_pyramids`: the sizes from fine to coarse: `deep_video_compression.py:524-534`. -/
def pyramid : ℕ → Size → Except Err (List Size)
  | 0, n => .ok [n]
  | k + 1, n => do
    let m ← pool n
    let rest ← pyramid k m
    return n :: rest

/-- `calculate_flow_with_image_pairs`: the size of the flow: `deep_video_compression.py:558-586`. At each level from
coarse to fine the flow is resized to the image of that level (`interpolate`), so the result has the size of the last
image taken, the finest. The convolutions have `padding = kernel_size // 2` and stride one, which keeps the size for
the odd default kernel. -/
def flowSize (levels : ℕ) (image1 image2 : Size) : Except Err Size :=
  if image1 ≠ image2 then .error .value
  else do
    let images ← pyramid (levels - 1) image1
    return images.reverse.foldl (fun _ image => image) (images.getLast?.getD (0, 0))

/-- `_MotionCompensationLayer.forward` with `levels` nested layers: `deep_video_compression.py:704-719`. The blocks
keep the size. -/
def compensateLayer : ℕ → Size → Except Err Size
  | 0, n => .ok n
  | 1, n => .ok n
  | k + 2, n => do
    let m ← pool n
    let _ ← compensateLayer (k + 1) m
    return n

/-- `DVCMotionCompensationModel.forward`: `deep_video_compression.py:671-672`; the concatenation raises if the sizes
differ. -/
def compensate (levels : ℕ) (image1 image2 flow : Size) : Except Err Size :=
  if image1 ≠ image2 ∨ image1 ≠ flow then .error .runtime else compensateLayer levels image1

/-- `DVC.compress` on sizes, for the default networks: `deep_video_compression.py:187-213`. The result is the sizes
of flow and residual latents and their logged sizes. -/
def compressSizes (image1 image2 : Size) : Except Err ((Size × List Size) × (Size × List Size)) := do
  let flow ← flowSize 5 image1 image2
  let (flowLatent, flowSizes) ← Conf.encode {} flow
  let flow ← Conf.decode {} flowLatent flowSizes
  let est ← compensate 3 image1 image1 flow
  if image2 ≠ est then .error .runtime
  let residual ← Conf.encode { kernel := 5 } est
  return ((flowLatent, flowSizes), residual)

/-- `DVC.decompress` on sizes: `deep_video_compression.py:215-254`. The bottleneck returns a latent of the size it
is asked for. -/
def decompressSizes (image1 : Size) (flowSizes residualSizes : List Size) : Except Err Size := do
  let flow ← Conf.decode {} (askedSize flowSizes) flowSizes
  let est ← compensate 3 image1 image1 flow
  let residual ← Conf.decode { kernel := 5 } (askedSize residualSizes) residualSizes
  if residual ≠ est then .error .runtime
  return est

/-! ### Coding of P-frames -/

/-- An entropy bottleneck: coding, decoding into a requested size, and the quantisation in the evaluation mode of
`forward`. -/
structure Bottleneck (Lat Str : Type) where
  compress : Lat → Str
  decompress : Str → Size → Lat
  quantize : Lat → Lat

/-- The networks of `DVC` for images with pixels `ι`: `deep_video_compression.py:118-169`. -/
structure Nets (ι Flow Lat Str : Type) where
  motionEstimator : (ι → ℝ) → (ι → ℝ) → Flow
  motionEncoder : Flow → Lat × List Size
  motionBottleneck : Bottleneck Lat Str
  motionDecoder : Lat → List Size → Flow
  warp : (ι → ℝ) → Flow → ι → ℝ
  motionCompensation : (ι → ℝ) → (ι → ℝ) → Flow → ι → ℝ
  residualEncoder : (ι → ℝ) → Lat × List Size
  residualBottleneck : Bottleneck Lat Str
  residualDecoder : Lat → List Size → ι → ℝ
  /-- The height and width of a latent, `latent.shape[-2:]`. -/
  latentSize : Lat → Size

/-- `CompressedPFrame`: `deep_video_compression.py:27-43`. -/
structure PFrame (Str : Type) where
  flow : Str
  flowSizes : List Size
  residual : Str
  residualSizes : List Size

variable {ι Flow Lat Str : Type}

/-- `DVC.compress`: `deep_video_compression.py:187-213`. -/
def Nets.compress (m : Nets ι Flow Lat Str) (image1 image2 : ι → ℝ) : PFrame Str :=
  let flow := m.motionEstimator image1 image2
  let (flowLatent, flowSizes) := m.motionEncoder flow
  let compressedFlow := m.motionBottleneck.compress flowLatent
  let flowLatent := m.motionBottleneck.decompress compressedFlow (m.latentSize flowLatent)
  let flow := m.motionDecoder flowLatent flowSizes
  let est := m.warp image1 flow
  let est := m.motionCompensation image1 est flow
  let residual := fun i => image2 i - est i
  let (residualLatent, residualSizes) := m.residualEncoder residual
  let compressedResidual := m.residualBottleneck.compress residualLatent
  { flow := compressedFlow, flowSizes, residual := compressedResidual, residualSizes }

/-- `DVC.decompress`: `deep_video_compression.py:227-254`. -/
noncomputable def Nets.decompress (m : Nets ι Flow Lat Str) (image1 : ι → ℝ) (p : PFrame Str) : ι → ℝ :=
  let flowLatent := m.motionBottleneck.decompress p.flow (askedSize p.flowSizes)
  let flow := m.motionDecoder flowLatent p.flowSizes
  let est := m.warp image1 flow
  let est := m.motionCompensation image1 est flow
  let residualLatent := m.residualBottleneck.decompress p.residual (askedSize p.residualSizes)
  let residual := m.residualDecoder residualLatent p.residualSizes
  fun i => max 0 (min 1 (est i + residual i))

/-- `DVC.forward` in evaluation mode: the estimate of the second image: `deep_video_compression.py:290-310`. The
probabilities are not modelled. -/
def Nets.forward (m : Nets ι Flow Lat Str) (image1 image2 : ι → ℝ) : ι → ℝ :=
  let flow := m.motionEstimator image1 image2
  let (latent, sizes) := m.motionEncoder flow
  let latent := m.motionBottleneck.quantize latent
  let flow := m.motionDecoder latent sizes
  let est := m.warp image1 flow
  let est := m.motionCompensation image1 est flow
  let residual := fun i => image2 i - est i
  let (latent, sizes) := m.residualEncoder residual
  let latent := m.residualBottleneck.quantize latent
  let residual := m.residualDecoder latent sizes
  fun i => est i + residual i

/-- A sender codes the frames of a scene one after the other, always relative to its own reconstruction of the frame
before (the use that the signatures of `compress` and `decompress` suggest): what it sends and its reconstructions. -/
noncomputable def Nets.send (m : Nets ι Flow Lat Str) : (ι → ℝ) → List (ι → ℝ) → List (PFrame Str × (ι → ℝ))
  | _, [] => []
  | reference, image :: images =>
    let p := m.compress reference image
    let reference' := m.decompress reference p
    (p, reference') :: m.send reference' images

/-- The receiver decodes the frames one after the other. -/
noncomputable def Nets.receive (m : Nets ι Flow Lat Str) : (ι → ℝ) → List (PFrame Str) → List (ι → ℝ)
  | _, [] => []
  | reference, p :: ps =>
    let reference' := m.decompress reference p
    reference' :: m.receive reference' ps

/-- A bottleneck's `update(force)`: `none` is no tables, and the result says whether they were computed
(`compressai`'s `EntropyBottleneck.update`). -/
def updateTables (tables : Option ℕ) (current : ℕ) (force : Bool) : Option ℕ × Bool :=
  if tables.isSome && !force then (tables, false) else (some current, true)

/-- `DVC.update`: `deep_video_compression.py:256-269`. -/
def update (motion residual : Option ℕ) (currentMotion currentResidual : ℕ) (force : Bool) :
    (Option ℕ × Option ℕ) × Bool :=
  let update1 := updateTables motion currentMotion force
  let update2 := updateTables residual currentResidual force
  ((update1.1, update2.1), update1.2 || update2.2)

end Verif.Models.Dvc
