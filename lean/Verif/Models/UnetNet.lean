import Verif.Models.Unet
import Verif.Models.HificNet
import Mathlib.Data.Real.Sqrt

/-!
Model of the values that `UnetDiscriminator` and `ConditionalUnetDiscriminator`
(`/repo/neuralcompression/models/_unet_discriminator.py`) compute, with the memory of the tensors: several layers work in
place, and blocks and shortcuts are given the same tensor.  The levels and the shapes that raise are those of
`Models/Unet.lean`.

Simplifications: real numbers instead of floats; the weights are those after spectral normalisation, if there is any; the
update of the running statistics of batch normalisation in training is not modelled; a tensor is an `Image`, whose channels
beyond those of the layer are never read.
-/

namespace Verif.Models.UnetNet

open Verif Verif.Functional
open Verif.Models.HificNet (ConvW conv2d zeroPadded)
open Verif.Models.Unet (Err Level)

/-! ### Memory -/

/-- The tensors that were made so far; a tensor is known by its number. -/
abbrev Heap := List (Image ℝ)

/-- The value of a tensor. -/
noncomputable def get (h : Heap) (r : ℕ) : Image ℝ := (h[r]?).getD ⟨0, 0, fun _ _ _ _ => 0⟩

/-- A layer that makes a new tensor. -/
noncomputable def fresh (f : Image ℝ → Image ℝ) (h : Heap) (r : ℕ) : Heap × ℕ := (h ++ [f (get h r)], h.length)

/-- A layer with `inplace=True`: it writes to the tensor it is given and returns it. -/
noncomputable def inplace (f : Image ℝ → Image ℝ) (h : Heap) (r : ℕ) : Heap × ℕ := (h.set r (f (get h r)), r)

/-- `x + y`, a new tensor: `_unet_discriminator.py:153-154`. -/
noncomputable def sum (h : Heap) (r s : ℕ) : Heap × ℕ := (h ++ [HificNet.add (get h r) (get h s)], h.length)

/-! ### Layers -/

/-- The types of normalisation: `_unet_discriminator.py:19-21`. -/
inductive NormType
  | batch
  | spectral
  | instance
  | identity
  deriving DecidableEq

/-- `_verify_norm_type`: `_unet_discriminator.py:19-21`, called in `24-25, 33-34`. -/
def parseNorm (name : String) : Except Err NormType :=
  if name = "batch" then .ok .batch
  else if name = "spectral" then .ok .spectral
  else if name = "instance" then .ok .instance
  else if name = "identity" then .ok .identity
  else .error .value

/-- Training or evaluation, and the number of images in the batch. -/
structure Mode where
  training : Bool
  images : ℕ

/-- The parameters and running statistics of `nn.BatchNorm2d`: `_unet_discriminator.py:35-36`. -/
structure BatchW where
  gamma : ℕ → ℝ
  beta : ℕ → ℝ
  mean : ℕ → ℝ
  var : ℕ → ℝ

/-- The mean of a channel over the first `n` images from number `b` on (torch). -/
noncomputable def meanOf (x : Image ℝ) (b n c : ℕ) : ℝ :=
  (∑ k ∈ Finset.range n, ∑ i ∈ Finset.range x.height, ∑ j ∈ Finset.range x.width, x.pix (b + k) c i j) /
    (n * x.height * x.width)

/-- The variance, without Bessel's correction, over the same values (torch). -/
noncomputable def varOf (x : Image ℝ) (b n c : ℕ) : ℝ :=
  (∑ k ∈ Finset.range n, ∑ i ∈ Finset.range x.height, ∑ j ∈ Finset.range x.width,
    (x.pix (b + k) c i j - meanOf x b n c) ^ 2) / (n * x.height * x.width)

/-- `nn.BatchNorm2d(chans)` (torch, `eps=1e-5`): statistics of the batch in training, running statistics in evaluation. -/
noncomputable def batchNorm (m : Mode) (w : BatchW) (x : Image ℝ) : Image ℝ :=
  { x with pix := fun b c i j =>
      let mean := if m.training then meanOf x 0 m.images c else w.mean c
      let var := if m.training then varOf x 0 m.images c else w.var c
      w.gamma c * ((x.pix b c i j - mean) / √(var + 1 / 100000)) + w.beta c }

/-- `nn.InstanceNorm2d(chans)` (torch, `eps=1e-5`, neither affine nor with running statistics). -/
noncomputable def instanceNorm (x : Image ℝ) : Image ℝ :=
  { x with pix := fun b c i j => (x.pix b c i j - meanOf x b 1 c) / √(varOf x b 1 c + 1 / 100000) }

/-- A layer of `build_norm_layer`: `_unet_discriminator.py:33-40`.  torch raises `ValueError` if a mean would be over one
value only: in batch normalisation in training, in instance normalisation always.  `nn.Identity` returns its argument. -/
noncomputable def norm (t : NormType) (m : Mode) (w : BatchW) (h : Heap) (r : ℕ) : Except Err (Heap × ℕ) :=
  match t with
  | .batch =>
    if m.training = true ∧ m.images * (get h r).height * (get h r).width = 1 then .error .value
    else .ok (fresh (batchNorm m w) h r)
  | .instance =>
    if (get h r).height * (get h r).width = 1 then .error .value else .ok (fresh instanceNorm h r)
  | _ => .ok (h, r)

/-- `nn.LeakyReLU(negative_slope=0.2)` (torch). -/
noncomputable def leaky (x : Image ℝ) : Image ℝ :=
  { x with pix := fun b c i j => if 0 < x.pix b c i j then x.pix b c i j else 1 / 5 * x.pix b c i j }

/-- `nn.AvgPool2d(2)` (torch). -/
noncomputable def pool (x : Image ℝ) : Image ℝ :=
  ⟨x.height / 2, x.width / 2, fun b c i j =>
    (∑ di ∈ Finset.range 2, ∑ dj ∈ Finset.range 2, x.pix b c (2 * i + di) (2 * j + dj)) / 4⟩

/-- `nn.Upsample(scale_factor=2)` (torch, nearest neighbour). -/
def upsample (x : Image ℝ) : Image ℝ := ⟨2 * x.height, 2 * x.width, fun b c i j => x.pix b c (i / 2) (j / 2)⟩

/-- A convolution that has no bias with batch normalisation: `_unet_discriminator.py:43-58, 82-84`. -/
noncomputable def conv3 (t : NormType) (cin : ℕ) (w : ConvW) (x : Image ℝ) : Image ℝ :=
  conv2d cin 3 1 1 (if t = .batch then { w with bias := fun _ => 0 } else w) x

/-- The parameters of a level: `_unet_discriminator.py:89-150`. -/
structure LevelW where
  norm1 : BatchW
  conv1 : ConvW
  norm2 : BatchW
  conv2 : ConvW
  short : ConvW
  norm3 : BatchW
  conv3 : ConvW
  norm4 : BatchW
  conv4 : ConvW
  shortUp : ConvW

/-! ### Levels -/

/-- `left_block`: `_unet_discriminator.py:89-99`. -/
noncomputable def leftBlock (t : NormType) (m : Mode) (top : Bool) (l : Level) (w : LevelW) (h : Heap) (r : ℕ) :
    Except Err (Heap × ℕ) := do
  let (h, r) ← if top then .ok (h, r) else norm t m w.norm1 h r
  let (h, r) := if top then (h, r) else inplace leaky h r
  let (h, r) := fresh (conv3 t l.inPlanes w.conv1) h r
  let (h, r) ← norm t m w.norm2 h r
  let (h, r) := inplace leaky h r
  let (h, r) := fresh (conv2d l.downPlanes 3 1 1 w.conv2) h r
  .ok (fresh pool h r)

/-- `left_shortcut`: `_unet_discriminator.py:100-116`. -/
noncomputable def leftShortcut (l : Level) (w : LevelW) (h : Heap) (r : ℕ) : Heap × ℕ :=
  let (h, r) := if l.inPlanes ≠ l.downPlanes then fresh (conv2d l.inPlanes 1 1 0 w.short) h r else (h, r)
  fresh pool h r

/-- `self.left_block(image) + self.left_shortcut(image)`: `_unet_discriminator.py:153`. -/
noncomputable def down (t : NormType) (m : Mode) (top : Bool) (l : Level) (w : LevelW) (h : Heap) (r : ℕ) :
    Except Err (Heap × ℕ) := do
  let (h, a) ← leftBlock t m top l w h r
  let (h, b) := leftShortcut l w h r
  .ok (sum h a b)

/-- `right_block`: `_unet_discriminator.py:120-134`. -/
noncomputable def rightBlock (t : NormType) (m : Mode) (l : Level) (w : LevelW) (h : Heap) (r : ℕ) :
    Except Err (Heap × ℕ) := do
  if l.clip then .ok (h, r)
  else
    let (h, r) ← norm t m w.norm3 h r
    let (h, r) := inplace leaky h r
    let (h, r) := fresh upsample h r
    let (h, r) := fresh (conv3 t l.downPlanes w.conv3) h r
    let (h, r) ← norm t m w.norm4 h r
    let (h, r) := inplace leaky h r
    .ok (fresh (conv2d l.outPlanes 3 1 1 w.conv4) h r)

/-- `right_shortcut`: `_unet_discriminator.py:122, 135-150`; a clipped level adds the number zero. -/
noncomputable def rightShortcut (l : Level) (w : LevelW) (h : Heap) (r : ℕ) : Heap × ℕ :=
  if l.clip then fresh (fun x => { x with pix := fun _ _ _ _ => 0 }) h r
  else
    let (h, r) := if l.downPlanes ≠ l.outPlanes then fresh (conv2d l.downPlanes 1 1 0 w.shortUp) h r else (h, r)
    fresh upsample h r

/-- `self.right_block(image) + self.right_shortcut(image)`: `_unet_discriminator.py:154`. -/
noncomputable def up (t : NormType) (m : Mode) (l : Level) (w : LevelW) (h : Heap) (r : ℕ) : Except Err (Heap × ℕ) := do
  let (h, a) ← rightBlock t m l w h r
  let (h, b) := rightShortcut l w h r
  .ok (sum h a b)

/-- `_UnetLevel.forward`: `_unet_discriminator.py:152-154`, for the levels from number `k` (the top is number 0) on; the
innermost child is `nn.Identity()`. -/
noncomputable def run (t : NormType) (m : Mode) (w : ℕ → LevelW) : ℕ → List Level → Heap → ℕ → Except Err (Heap × ℕ)
  | _, [], h, r => .ok (h, r)
  | k, l :: ls, h, r => do
    let (h, r) ← down t m (decide (k = 0)) l (w k) h r
    let (h, r) ← run t m w (k + 1) ls h r
    up t m l (w k) h r

/-! ### Discriminators -/

/-- The parameters of a discriminator: `_unet_discriminator.py:213-241, 311-320`. -/
structure Weights where
  level : ℕ → LevelW
  last : ConvW
  context : ConvW

/-- `UnetDiscriminator.forward`: `_unet_discriminator.py:247-248`, with `chans` channels in the image; a shape that the
layers cannot process raises. -/
noncomputable def forward (t : NormType) (m : Mode) (levels : List Level) (outputChannels chans : ℕ) (w : Weights)
    (h : Heap) (image : ℕ) : Except Err (Heap × ℕ) := do
  let _ ← Unet.forward levels outputChannels ⟨chans, (get h image).height, (get h image).width⟩
  let (h, r) ← run t m w.level 0 levels h image
  .ok (fresh (conv2d 64 1 1 0 w.last) h r)

/-- The index that reflection padding by one pixel reads: `_unet_discriminator.py:316-318`. -/
def reflect (n : ℕ) (i : ℤ) : ℕ := if i < 0 then (-i).toNat else if i < n then i.toNat else (2 * (n : ℤ) - 2 - i).toNat

/-- The convolution of the context, with `padding_mode="reflect"`: `_unet_discriminator.py:312-318`. -/
noncomputable def reflectConv (cin : ℕ) (w : ConvW) (x : Image ℝ) : Image ℝ :=
  { x with pix := fun b o i j => w.bias o +
      ∑ c ∈ Finset.range cin, ∑ di ∈ Finset.range 3, ∑ dj ∈ Finset.range 3,
        w.weight o c di dj * x.pix b c (reflect x.height ((i : ℤ) + di - 1)) (reflect x.width ((j : ℤ) + dj - 1)) }

/-- `F.interpolate(_, size=(ny, nx), mode="nearest")` (torch): `_unet_discriminator.py:331-333`. -/
def interpolate (ny nx : ℕ) (x : Image ℝ) : Image ℝ :=
  ⟨ny, nx, fun b c i j => x.pix b c (i * x.height / ny) (j * x.width / nx)⟩

/-- `torch.cat((x, y), dim=1)` for `chans` channels in `x`: `_unet_discriminator.py:328-336`. -/
def cat (chans : ℕ) (x y : Image ℝ) : Image ℝ :=
  { x with pix := fun b c i j => if c < chans then x.pix b c i j else y.pix b (c - chans) i j }

/-- `ConditionalUnetDiscriminator.forward`: `_unet_discriminator.py:326-338`.  Reflection padding raises if the context has
fewer than two pixels in a direction. -/
noncomputable def forwardConditional (t : NormType) (m : Mode) (levels : List Level)
    (outputChannels chans contextIn contextOut : ℕ) (w : Weights) (h : Heap) (image context : ℕ) :
    Except Err (Heap × ℕ) := do
  let ny := (get h image).height
  let nx := (get h image).width
  if (get h context).height < 2 ∨ (get h context).width < 2 then .error .runtime
  else
    let (h, c) := fresh (reflectConv contextIn w.context) h context
    let (h, c) := inplace leaky h c
    let (h, c) := fresh (interpolate ny nx) h c
    let (h, x) := (h ++ [cat chans (get h image) (get h c)], h.length)
    forward t m levels outputChannels (chans + contextOut) w h x

end Verif.Models.UnetNet
