import Mathlib.Data.Nat.Basic

/-!
Model of how the networks of `/repo/neuralcompression/models/deep_video_compression.py` are put together from their
settings: the layers that the constructors append, and the shapes of the tensors that `forward` passes through them.
`Models/Dvc.lean` models the sizes of the default model and the coding of frames; this file has every setting.

Simplifications: a tensor is its shape (batch, channels, height, width); the numbers of channels that a network is
built with are at least one; the checks of a torch layer (2.0.1) are those of `Layer.apply` and `convT`.
-/

namespace Verif.Models.DvcNets

/-- What the code raises. -/
inductive Err where
  /-- `ValueError`. -/
  | value
  /-- `RuntimeError` of torch. -/
  | runtime
  /-- `AssertionError`. -/
  | assertion
  deriving DecidableEq, Repr

/-- The shape of an image tensor. -/
structure Shape where
  n : ℕ
  c : ℕ
  h : ℕ
  w : ℕ
  deriving DecidableEq, Repr

/-- The layers that the constructors append; `gdn` is `SimplifiedGDN` or `SimplifiedInverseGDN`, which have the same
parameters and the same effect on shapes (`_simplified_gdn.py:55-77`, `102-124`). -/
inductive Layer where
  | conv (cin cout kernel stride padding : ℕ) (bias : Bool)
  | convT (cin cout kernel stride padding : ℕ) (bias : Bool)
  | gdn (channels : ℕ)
  | batchNorm (channels : ℕ)
  | relu
  deriving DecidableEq, Repr

/-- The number of trainable values of a layer (torch; `_simplified_gdn.py:57-60`). -/
def Layer.parameters : Layer → ℕ
  | .conv cin cout kernel _ _ bias => cout * cin * kernel * kernel + if bias then cout else 0
  | .convT cin cout kernel _ _ bias => cin * cout * kernel * kernel + if bias then cout else 0
  | .gdn c => c * c + c
  | .batchNorm c => c + c
  | .relu => 0

/-- The output size of a convolution in one direction (torch). -/
def convOut (kernel stride padding m : ℕ) : ℕ := (m + 2 * padding - kernel) / stride + 1

/-- A transposed convolution (torch): without a requested size the output has the smallest size of the stride; with
one, `_output_padding` raises `ValueError` unless the stride can produce it. The output must not be empty. -/
def convTOut (kernel stride padding m : ℕ) (wanted : Option ℕ) : Except Err ℕ :=
  let smallest : ℤ := ((m : ℤ) - 1) * stride - 2 * padding + kernel
  match wanted with
  | none => if smallest < 1 then .error .runtime else .ok smallest.toNat
  | some size =>
    if (size : ℤ) < smallest ∨ smallest + stride - 1 < size then .error .value
    else if size = 0 then .error .runtime else .ok size

/-- A layer that does not get a requested size (torch). A batch normalisation in training needs more than one value
per channel. -/
def Layer.apply (training : Bool) (l : Layer) (s : Shape) : Except Err Shape :=
  match l with
  | .conv cin cout kernel stride padding _ =>
    if s.c ≠ cin ∨ kernel = 0 ∨ stride = 0 ∨ s.h = 0 ∨ s.w = 0 ∨ s.h + 2 * padding < kernel
        ∨ s.w + 2 * padding < kernel then .error .runtime
    else .ok { s with c := cout, h := convOut kernel stride padding s.h, w := convOut kernel stride padding s.w }
  | .convT cin cout kernel stride padding _ =>
    if s.c ≠ cin ∨ kernel = 0 ∨ stride = 0 ∨ s.h = 0 ∨ s.w = 0 then .error .runtime
    else do
      let h ← convTOut kernel stride padding s.h none
      let w ← convTOut kernel stride padding s.w none
      return { s with c := cout, h := h, w := w }
  | .gdn c => if s.c ≠ c then .error .runtime else .ok s
  | .batchNorm c =>
    if training ∧ s.n * (s.h * s.w) = 1 then .error .value else if s.c ≠ c then .error .runtime else .ok s
  | .relu => .ok s

/-- `nn.Sequential`. -/
def sequential (training : Bool) : List Layer → Shape → Except Err Shape
  | [], s => .ok s
  | l :: rest, s => do
    let t ← l.apply training s
    sequential training rest t

/-! ### Encoder and decoder -/

/-- The arguments of `DVCCompressionEncoder` and `DVCCompressionDecoder`: `deep_video_compression.py:332-341`,
`418-427`. -/
structure Coder where
  inChannels : ℕ
  outChannels : ℕ
  filterChannels : ℕ := 128
  kernel : ℕ := 3
  stride : ℕ := 2
  layers : ℕ := 4
  useGdn : Bool := true

/-- What follows a convolution that is not the last: `deep_video_compression.py:358-362`, `444-448`. -/
def Coder.norm (k : Coder) : List Layer :=
  if k.useGdn then [.gdn k.filterChannels] else [.batchNorm k.filterChannels, .relu]

/-- The loop over all convolutions but the last and the last one, given the current `in_channels`:
`deep_video_compression.py:433-461`. -/
def Coder.encoderFrom (k : Coder) : ℕ → ℕ → List Layer
  | 0, cin => [.conv cin k.outChannels k.kernel k.stride (k.kernel / 2) true]
  | m + 1, cin =>
    .conv cin k.filterChannels k.kernel k.stride (k.kernel / 2) k.useGdn :: k.norm
      ++ k.encoderFrom m k.filterChannels

/-- The layers of `DVCCompressionEncoder`: `deep_video_compression.py:428-461`; `range` of a negative number is
empty. -/
def Coder.encoder (k : Coder) : List Layer := k.encoderFrom (k.layers - 1) k.inChannels

/-- The same for the decoder: `deep_video_compression.py:347-375`. -/
def Coder.decoderFrom (k : Coder) : ℕ → ℕ → List Layer
  | 0, cin => [.convT cin k.outChannels k.kernel k.stride (k.kernel / 2) true]
  | m + 1, cin =>
    .convT cin k.filterChannels k.kernel k.stride (k.kernel / 2) k.useGdn :: k.norm
      ++ k.decoderFrom m k.filterChannels

/-- The layers of `DVCCompressionDecoder`: `deep_video_compression.py:342-375`. -/
def Coder.decoder (k : Coder) : List Layer := k.decoderFrom (k.layers - 1) k.inChannels

/-- `DVCCompressionEncoder.forward`, the loop: `deep_video_compression.py:463-472`. -/
def encodeLoop (training : Bool) : List Layer → Shape → List Shape → Except Err (Shape × List Shape)
  | [], s, sizes => .ok (s, sizes)
  | l :: rest, s, sizes => do
    let sizes := match l with
      | .conv .. => sizes ++ [s]
      | _ => sizes
    let t ← l.apply training s
    encodeLoop training rest t sizes

/-- `DVCCompressionEncoder.forward`: `deep_video_compression.py:463-472`. -/
def Coder.encode (k : Coder) (training : Bool) (s : Shape) : Except Err (Shape × List Shape) :=
  encodeLoop training k.encoder s []

/-- Whether a layer is a transposed convolution: `deep_video_compression.py:385`, `395`. -/
def Layer.isConvT : Layer → Bool
  | .convT .. => true
  | _ => false

/-- A transposed convolution with a requested size (torch), of which only the last two numbers count. -/
def applySized (l : Layer) (s wanted : Shape) : Except Err Shape :=
  match l with
  | .convT cin cout kernel stride padding _ =>
    if s.c ≠ cin ∨ kernel = 0 ∨ stride = 0 ∨ s.h = 0 ∨ s.w = 0 then .error .runtime
    else do
      let h ← convTOut kernel stride padding s.h (some wanted.h)
      let w ← convTOut kernel stride padding s.w (some wanted.w)
      return { s with c := cout, h := h, w := w }
  | _ => .error .runtime

/-- The deconvolutions with sizes: `deep_video_compression.py:393-398`. `output_sizes.pop()` takes the last. -/
def decodeSized (training : Bool) : List Layer → Shape → List Shape → Except Err Shape
  | [], s, _ => .ok s
  | l :: rest, s, sizes =>
    if l.isConvT then
      match sizes.getLast? with
      | none => .error .runtime
      | some wanted => do
        let t ← applySized l s wanted
        decodeSized training rest t sizes.dropLast
    else do
      let t ← l.apply training s
      decodeSized training rest t sizes

/-- `DVCCompressionDecoder.forward`: `deep_video_compression.py:377-400`. -/
def Coder.decode (k : Coder) (training : Bool) (s : Shape) (sizes : Option (List Shape)) : Except Err Shape :=
  match sizes with
  | none => sequential training k.decoder s
  | some sizes =>
    if (k.decoder.filter Layer.isConvT).length ≠ sizes.length then .error .value
    else decodeSized training k.decoder s sizes

/-! ### Tensor operations -/

/-- One dimension of an elementwise operation with broadcasting (torch). -/
def broadcastDim (a b : ℕ) : Except Err ℕ :=
  if a = b then .ok a else if a = 1 then .ok b else if b = 1 then .ok a else .error .runtime

/-- An elementwise operation such as `+` (torch). -/
def broadcast (a b : Shape) : Except Err Shape := do
  let n ← broadcastDim a.n b.n
  let c ← broadcastDim a.c b.c
  let h ← broadcastDim a.h b.h
  let w ← broadcastDim a.w b.w
  return ⟨n, c, h, w⟩

/-- `torch.cat((a, b, c), dim=1)`. -/
def concat3 (a b c : Shape) : Except Err Shape :=
  if b.n ≠ a.n ∨ b.h ≠ a.h ∨ b.w ≠ a.w ∨ c.n ≠ a.n ∨ c.h ≠ a.h ∨ c.w ≠ a.w then .error .runtime
  else .ok { a with c := a.c + b.c + c.c }

/-- `F.avg_pool2d(image, 2)`: it raises when the result would be empty. -/
def avgPool (s : Shape) : Except Err Shape :=
  if s.h / 2 = 0 ∨ s.w / 2 = 0 then .error .runtime else .ok { s with h := s.h / 2, w := s.w / 2 }

/-- `F.interpolate(image, (h, w))`: both sizes must not be empty. -/
def resize (s : Shape) (h w : ℕ) : Except Err Shape :=
  if s.h = 0 ∨ s.w = 0 ∨ h = 0 ∨ w = 0 then .error .runtime else .ok { s with h := h, w := w }

/-- `dense_image_warp(image, flow.permute(0, 2, 3, 1))`: `_dense_image_warp.py:69-86`; `grid_sample` wants as many
grids as images, and images that are not empty. -/
def warp (image flow : Shape) : Except Err Shape :=
  if flow.c ≠ 2 then .error .value
  else if image.n ≠ flow.n ∨ image.h = 0 ∨ image.w = 0 then .error .runtime
  else .ok ⟨image.n, image.c, flow.h, flow.w⟩

/-! ### Flow estimation -/

/-- The arguments of `DVCPyramidFlowEstimator`: `deep_video_compression.py:492-501`. -/
structure Estimator where
  inChannels : ℕ := 8
  filterCounts : List ℕ := [32, 64, 32, 16, 2]
  kernel : ℕ := 7
  levels : ℕ := 5

/-- The layers of one level, given `current_in_channels`: `deep_video_compression.py:505-522`. -/
def levelLayers (kernel : ℕ) : ℕ → List ℕ → List Layer
  | _, [] => []
  | cin, count :: rest =>
    .conv cin count kernel 1 (kernel / 2) true ::
      (match rest with
        | [] => []
        | _ :: _ => .relu :: levelLayers kernel count rest)

/-- The layers of a level: `deep_video_compression.py:505-522`. -/
def Estimator.level (e : Estimator) : List Layer := levelLayers e.kernel e.inChannels e.filterCounts

/-- `_decompose_images_to_pyramids` for one image, from fine to coarse, with so many poolings:
`deep_video_compression.py:524-534`. -/
def pyramid : ℕ → Shape → Except Err (List Shape)
  | 0, s => .ok [s]
  | k + 1, s => do
    let t ← avgPool s
    let rest ← pyramid k t
    return s :: rest

/-- The loop over the levels, for the images from coarse to fine: `deep_video_compression.py:565-582`. The two
pyramids have the same shapes. -/
def Estimator.loop (e : Estimator) (training : Bool) : List Shape → Shape → List (Shape × Shape) →
    Except Err (Shape × List (Shape × Shape))
  | [], flow, pairs => .ok (flow, pairs)
  | image :: rest, flow, pairs => do
    let flow ← resize flow image.h image.w
    let warped ← warp image flow
    let input ← concat3 warped image flow
    let update ← sequential training e.level input
    let flow ← broadcast flow update
    let warped ← warp image flow
    e.loop training rest flow (pairs ++ [(warped, image)])

/-- `calculate_flow_with_image_pairs`: `deep_video_compression.py:558-586`. With no level there is nothing to loop
over. -/
def Estimator.flow (e : Estimator) (training : Bool) (image1 image2 : Shape) :
    Except Err (Shape × List (Shape × Shape)) :=
  if image1 ≠ image2 then .error .value
  else do
    let images ← pyramid (e.levels - 1) image1
    let coarse := images.getLast?.getD image1
    e.loop training (images.reverse.take e.levels) { coarse with c := min coarse.c 2 } []

/-! ### Motion compensation -/

/-- The arguments of `DVCMotionCompensationModel`: `deep_video_compression.py:621-629`. -/
structure Compensator where
  inChannels : ℕ := 8
  modelChannels : ℕ := 64
  outChannels : ℕ := 3
  kernel : ℕ := 3
  levels : ℕ := 3

/-- `_ResidualBlock.forward` with the default kernel and stride: `deep_video_compression.py:734-766`. -/
def residualBlock (cin cout : ℕ) (training : Bool) (s : Shape) : Except Err Shape := do
  let t ← sequential training [.relu, .conv cin cin 3 1 1 true, .relu, .conv cin cout 3 1 1 true] s
  broadcast s t

/-- `_MotionCompensationLayer.forward` of a nest of so many layers: `deep_video_compression.py:689-719`; the
innermost has no child. -/
def unet (channels : ℕ) (training : Bool) : ℕ → Shape → Except Err Shape
  | 0, s => .ok s
  | k + 1, s => do
    let image ← residualBlock channels channels training s
    let image ← match k with
      | 0 => .ok image
      | k + 1 => do
        let small ← avgPool image
        let child ← unet channels training (k + 1) small
        let up ← resize child s.h s.w
        broadcast image up
    residualBlock channels channels training image

/-- The construction of `DVCMotionCompensationModel`: `deep_video_compression.py:641-647`, `668`. Without a level
there is no layer and the assertion fails. -/
def Compensator.build (m : Compensator) : Except Err Unit :=
  if m.levels = 0 then .error .assertion else .ok ()

/-- The input layer: `deep_video_compression.py:633-639`. -/
def Compensator.input (m : Compensator) : List Layer :=
  [.conv m.inChannels m.modelChannels m.kernel 1 (m.kernel / 2) true]

/-- The output layers: `deep_video_compression.py:651-666`. -/
def Compensator.output (m : Compensator) : List Layer :=
  [.conv m.modelChannels m.modelChannels m.kernel 1 (m.kernel / 2) true, .relu,
    .conv m.modelChannels m.outChannels m.kernel 1 (m.kernel / 2) true]

/-- `DVCMotionCompensationModel.forward`: `deep_video_compression.py:668-672`. -/
def Compensator.forward (m : Compensator) (training : Bool) (image1 image2 flow : Shape) : Except Err Shape := do
  let s ← concat3 image1 image2 flow
  let s ← sequential training m.input s
  let s ← unet m.modelChannels training m.levels s
  sequential training m.output s

/-! ### The whole model -/

/-- The parts of `DVC`, given or built: `deep_video_compression.py:104-169`. A bottleneck is its channels. -/
structure Model where
  estimator : Estimator
  motionEncoder : Coder
  motionBottleneck : ℕ
  motionDecoder : Coder
  compensation : Compensator
  residualEncoder : Coder
  residualBottleneck : ℕ
  residualDecoder : Coder

/-- `DVC(coder_channels)` with no part given: `deep_video_compression.py:116-171`. -/
def Model.default (coderChannels : ℕ) : Model where
  estimator := {}
  motionEncoder := { inChannels := 2, filterChannels := coderChannels, outChannels := coderChannels }
  motionBottleneck := coderChannels
  motionDecoder := { inChannels := coderChannels, filterChannels := coderChannels, outChannels := 2 }
  compensation := {}
  residualEncoder :=
    { inChannels := 3, filterChannels := coderChannels, outChannels := coderChannels, kernel := 5 }
  residualBottleneck := coderChannels
  residualDecoder :=
    { inChannels := coderChannels, filterChannels := coderChannels, outChannels := 3, kernel := 5 }

/-- `EntropyBottleneck.forward` (compressai): the latent and its likelihoods have the shape of the input. The
channels must match, except that one channel is broadcast over all. -/
def bottleneck (channels : ℕ) (s : Shape) : Except Err (Shape × Shape) :=
  if s.c ≠ channels ∧ channels ≠ 1 then .error .runtime else .ok (s, s)

/-- `DVCTrainOutput`: `deep_video_compression.py:46-64`. -/
structure Output where
  flow : Shape
  image2 : Shape
  residual : Shape
  flowProbabilities : Shape
  residualProbabilities : Shape
  deriving DecidableEq, Repr

/-- `DVC.forward`: `deep_video_compression.py:291-314`. -/
def Model.forward (m : Model) (training : Bool) (image1 image2 : Shape) : Except Err Output := do
  let (flow, _) ← m.estimator.flow training image1 image2
  let (flow, sizes) ← m.motionEncoder.encode training flow
  let (flow, flowProbabilities) ← bottleneck m.motionBottleneck flow
  let flow ← m.motionDecoder.decode training flow (some sizes)
  let est ← warp image1 flow
  let est ← m.compensation.forward training image1 est flow
  let residual ← broadcast image2 est
  let (residual, sizes) ← m.residualEncoder.encode training residual
  let (residual, residualProbabilities) ← bottleneck m.residualBottleneck residual
  let residual ← m.residualDecoder.decode training residual (some sizes)
  let est ← broadcast est residual
  return ⟨flow, est, residual, flowProbabilities, residualProbabilities⟩

end Verif.Models.DvcNets
