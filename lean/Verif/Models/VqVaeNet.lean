import Verif.Models.VqVae
import Verif.Models.HificNet
import Verif.Layers.LatentTree
import Mathlib.Analysis.SpecialFunctions.Exp

/-!
Model of the values that `VqVaeXCiTAutoencoder` (`/repo/neuralcompression/models/_vqvae_xcit_autoencoder.py`) and
`VqVaeProjector` (`_vqvae_projector.py`) compute in evaluation mode, for all weights and configurations; the layers are those
of `Models/VqVae.lean`, which also says which shapes raise.

Simplifications: real numbers instead of floats (except in the straight-through estimator of the quantiser, whose rounding is
an argument); dropout is off, as in evaluation mode; a tensor is an `Image`; the number of images is only needed for the byte
count of the bottleneck.
-/

namespace Verif.Models.VqVaeNet

open Verif Verif.Functional Verif.Models.VqVae
open Verif.Models.HificNet (ConvW NormW conv2d channelNorm2d zeroPadded)
open Verif.Layers

/-! ### Layers -/

/-- `_nonlinearity`: `_vqvae_xcit_autoencoder.py:42-44`. -/
noncomputable def swish (x : Image ℝ) : Image ℝ :=
  { x with pix := fun b c i j => x.pix b c i j * (1 / (1 + Real.exp (-x.pix b c i j))) }

/-- The mean over the `size` channels of a group and all pixels, in `torch.nn.GroupNorm`
(`_vqvae_xcit_autoencoder.py:47-49`). -/
noncomputable def groupMean (size : ℕ) (x : Image ℝ) (b g : ℕ) : ℝ :=
  (∑ k ∈ Finset.range size, ∑ i ∈ Finset.range x.height, ∑ j ∈ Finset.range x.width, x.pix b (g * size + k) i j) /
    (size * x.height * x.width)

/-- The variance (without Bessel's correction) over the same values (`_vqvae_xcit_autoencoder.py:47-49`). -/
noncomputable def groupVar (size : ℕ) (x : Image ℝ) (b g : ℕ) : ℝ :=
  (∑ k ∈ Finset.range size, ∑ i ∈ Finset.range x.height, ∑ j ∈ Finset.range x.width,
    (x.pix b (g * size + k) i j - groupMean size x b g) ^ 2) / (size * x.height * x.width)

/-- `Normalize`, that is `torch.nn.GroupNorm(16, channels, eps=1e-6, affine=True)`: `_vqvae_xcit_autoencoder.py:47-49`. -/
noncomputable def groupNorm (channels : ℕ) (w : NormW) (x : Image ℝ) : Image ℝ :=
  { x with pix := fun b c i j =>
      let size := channels / 16
      let g := c / size
      w.gamma c * ((x.pix b c i j - groupMean size x b g) / √(groupVar size x b g + 1 / 1000000)) + w.beta c }

/-- A layer of `create_norm`: `_vqvae_xcit_autoencoder.py:52-58`; there are no layers of other types. -/
noncomputable def norm (n : Norm) (channels : ℕ) (w : NormW) (x : Image ℝ) : Image ℝ :=
  match n with
  | .group => groupNorm channels w x
  | .channel => channelNorm2d channels w x
  | _ => x

/-- `_Upsample.forward`: `_vqvae_xcit_autoencoder.py:70-74`. -/
noncomputable def upsample (withConv : Bool) (w : ConvW) (c : ℕ) (x : Image ℝ) : Image ℝ :=
  let y : Image ℝ := ⟨2 * x.height, 2 * x.width, fun b c i j => x.pix b c (i / 2) (j / 2)⟩
  if withConv then conv2d c 3 1 1 w y else y

/-- `_Downsample.forward`: `_vqvae_xcit_autoencoder.py:87-94`. -/
noncomputable def downsample (withConv : Bool) (w : ConvW) (c : ℕ) (x : Image ℝ) : Image ℝ :=
  if withConv then
    conv2d c 3 2 0 w ⟨x.height + 1, x.width + 1, fun b c i j => zeroPadded x b c i j⟩
  else ⟨(x.height - 2) / 2 + 1, (x.width - 2) / 2 + 1, fun b c i j =>
    (∑ di ∈ Finset.range 2, ∑ dj ∈ Finset.range 2, x.pix b c (2 * i + di) (2 * j + dj)) / 4⟩

/-- `x + y`. -/
def add (x y : Image ℝ) : Image ℝ := { x with pix := fun b c i j => x.pix b c i j + y.pix b c i j }

/-- The parameters of a residual block: `_vqvae_xcit_autoencoder.py:112-129`. -/
structure ResW where
  norm1 : NormW
  conv1 : ConvW
  norm2 : NormW
  conv2 : ConvW
  shortcut : ConvW

/-- `_ResnetBlock.forward`: `_vqvae_xcit_autoencoder.py:131-148`; the shortcut is the convolution of size 1, as the models
always use. -/
noncomputable def resBlock (n : Norm) (cin cout : ℕ) (w : ResW) (x : Image ℝ) : Image ℝ :=
  let h := swish (norm n cin w.norm1 x)
  let h := conv2d cin 3 1 1 w.conv1 h
  let h := swish (norm n cout w.norm2 h)
  let h := conv2d cout 3 1 1 w.conv2 h
  let x := if cin ≠ cout then conv2d cin 1 1 0 w.shortcut x else x
  add x h

/-- The parameters of an attention block, whatever its number of channels: `_vqvae_xcit_autoencoder.py:162-163`. -/
structure AttnW where
  norm : NormW
  xca : (c : ℕ) → Norm.Xca 1 c

/-- `self.xca` between the two permutations, for `c` channels: `_vqvae_xcit_autoencoder.py:167-169`; a pixel is a token, row
by row. -/
noncomputable def attention (c : ℕ) (w : Norm.Xca 1 c) (y : Image ℝ) : Image ℝ :=
  { y with pix := fun b k i j =>
      let tokens : Norm.Tokens (y.height * y.width) 1 c := fun t _ k => y.pix b k (t / y.width) (t % y.width)
      if h : i * y.width + j < y.height * y.width ∧ k < c then
        w.forward tokens ⟨i * y.width + j, h.1⟩ 0 ⟨k, h.2⟩
      else 0 }

/-- `_AttnBlock.forward`: `_vqvae_xcit_autoencoder.py:165-171`. -/
noncomputable def attnBlock (n : Norm) (c : ℕ) (w : AttnW) (x : Image ℝ) : Image ℝ :=
  add x (attention c (w.xca c) (norm n c w.norm x))

/-! ### Networks -/

/-- The parameters of the encoder or decoder, by level (in the order in which they run) and block:
`_vqvae_xcit_autoencoder.py:206-263, 336-386`. -/
structure NetW where
  convIn : ConvW
  res : ℕ → ℕ → ResW
  attn : ℕ → ℕ → AttnW
  resample : ℕ → ConvW
  mid1 : ResW
  midAttn : AttnW
  mid2 : ResW
  normOut : NormW
  convOut : ConvW

/-- The blocks of a level from number `k` on: `_vqvae_xcit_autoencoder.py:269-273, 400-403`; the second list are the
remaining attention blocks. -/
noncomputable def runBlocks (n : Norm) (res : ℕ → ResW) (attn : ℕ → AttnW) :
    ℕ → List (ℕ × ℕ) → List ℕ → Image ℝ → Image ℝ
  | _, [], _, x => x
  | k, b :: bs, as, x =>
    let h := resBlock n b.1 b.2 (res k) x
    let h := match as with | [] => h | a :: _ => attnBlock n a (attn k) h
    runBlocks n res attn (k + 1) bs as.tail h

/-- The levels from number `l` on: `_vqvae_xcit_autoencoder.py:268-275, 399-405`. -/
noncomputable def runLevels (n : Norm) (w : NetW) (resample : ConvW → ℕ → Image ℝ → Image ℝ) :
    ℕ → List Level → Image ℝ → Image ℝ
  | _, [], x => x
  | k, l :: ls, x =>
    let h := runBlocks n (w.res k) (w.attn k) 0 l.block l.attn x
    let h := match l.resample with | some c => resample (w.resample k) c h | none => h
    runLevels n w resample (k + 1) ls h

/-- The middle: `_vqvae_xcit_autoencoder.py:239-253, 340-354`. -/
noncomputable def mid (n : Norm) (c : ℕ) (w : NetW) (x : Image ℝ) : Image ℝ :=
  resBlock n c c w.mid2 (attnBlock n c w.midAttn (resBlock n c c w.mid1 x))

/-- `_VqVaeXCiTConvEncoder.forward`: `_vqvae_xcit_autoencoder.py:265-286`. -/
noncomputable def encode (cfg : Config) (net : Net) (w : NetW) (x : Image ℝ) : Image ℝ :=
  let h := conv2d cfg.inChannels 3 1 1 w.convIn x
  let h := runLevels (blockNorm cfg) w (downsample cfg.withConv) 0 net.levels h
  let h := mid (blockNorm cfg) net.c w h
  conv2d net.c 3 1 1 w.convOut (swish (norm (blockNorm cfg) net.c w.normOut h))

/-- `_VqvaeXCiTConvDecoder.forward`: `_vqvae_xcit_autoencoder.py:388-411`. -/
noncomputable def decode (cfg : Config) (net : Net) (w : NetW) (z : Image ℝ) : Image ℝ :=
  let block := cfg.ch * cfg.chMult.reverse.headD 0
  let h := conv2d cfg.embedDim 3 1 1 w.convIn z
  let h := mid (blockNorm cfg) block w h
  let h := runLevels (blockNorm cfg) w (upsample cfg.withConv) 0 net.levels h
  conv2d net.c 3 1 1 w.convOut (swish (norm (lastNorm cfg) net.c w.normOut h))

/-! ### The autoencoder -/

/-- An image of the batch, row and column of a latent. -/
abbrev Pixel := ℕ × ℕ × ℕ

/-- The latent of the encoder as the bottleneck sees it: `_vqvae_xcit_autoencoder.py:524-525`. -/
def toLat (channels : ℕ) (z : Image ℝ) : LatentTree.Lat Pixel := ⟨channels, fun p k => z.pix p.1 k p.2.1 p.2.2⟩

/-- A latent as the decoder sees it. -/
noncomputable def ofLat (height width : ℕ) (l : LatentTree.Lat Pixel) : Image ℝ :=
  ⟨height, width, fun b c i j => if h : c < l.dim then l.val (b, i, j) ⟨c, h⟩ else 0⟩

/-- What can be raised: the padding, a layer that is given a shape it cannot process, the bottleneck. -/
inductive Err
  | pad
  | shape (e : VqVae.Err)
  | bottleneck (e : LatentTree.Err)
deriving DecidableEq

/-- The output: `_vqvae_xcit_autoencoder.py:547-554`; `size` are the height and width of the latent. -/
structure Output where
  image : Image ℝ
  size : ℕ × ℕ
  latent : LatentTree.Lat Pixel
  indices : Option (Pixel → ℕ)

/-- The autoencoder: its layers, its parameters and `bottleneck_op`: `_vqvae_xcit_autoencoder.py:484-509`. -/
structure Codec where
  cfg : Config
  layers : Model
  encW : NetW
  decW : NetW
  bottleneck : Option LatentTree.Tree

/-- The padding in evaluation mode: `_vqvae_xcit_autoencoder.py:540-545`. -/
noncomputable def padded (cfg : Config) (x : Image ℝ) : Except Err (Image ℝ) :=
  let ph := (Hific.vqvaePad (factor cfg) x.height).toNat
  let pw := (Hific.vqvaePad (factor cfg) x.width).toNat
  if ph ≠ 0 ∨ pw ≠ 0 then
    match padEnd .reflect x ph pw with
    | .ok y => .ok y
    | .error _ => .error .pad
  else .ok x

/-- `self.bottleneck_op(VqVaeAutoencoderOutput(latent=...))`: `_vqvae_xcit_autoencoder.py:524-525, 547-550`; the
result is the record it returns (a bottleneck that succeeds always sets a latent). `n` is the number of images and `fl` the rounding in the straight-through estimator. -/
noncomputable def runBottleneck (fl : ℝ → ℝ) (n : ℕ) (t : Option LatentTree.Tree) (channels : ℕ) (z : Image ℝ) :
    Except Err (LatentTree.Record Pixel) :=
  let record : LatentTree.Record Pixel := { latent := some (toLat channels z) }
  match t with
  | none => .ok record
  | some t =>
    match LatentTree.forward fl (n * z.height * z.width) t [record] 0 with
    | (.error e, _) => .error (.bottleneck e)
    | (.ok r, heap) => .ok ((heap[r]?).getD {})

/-- A network that is given shapes: `Models/VqVae.lean`. -/
def checked (r : Except VqVae.Err Shape) : Except Err Unit :=
  match r with
  | .ok _ => .ok ()
  | .error e => .error (.shape e)

/-- The encoder, for a batch of `n` images with `in_channels` channels: `_vqvae_xcit_autoencoder.py:265-286`. -/
noncomputable def Codec.encode (m : Codec) (n : ℕ) (x : Image ℝ) : Except Err (Image ℝ) := do
  checked (VqVae.encode m.cfg m.layers.enc ⟨n, m.cfg.inChannels, x.height, x.width⟩)
  .ok (VqVaeNet.encode m.cfg m.layers.enc m.encW x)

/-- The decoder, for a batch of `n` latents: `_vqvae_xcit_autoencoder.py:388-411`. -/
noncomputable def Codec.decode (m : Codec) (n height width : ℕ) (z : LatentTree.Lat Pixel) : Except Err (Image ℝ) := do
  checked (VqVae.decode m.cfg m.layers.dec ⟨n, z.dim, height, width⟩)
  .ok (VqVaeNet.decode m.cfg m.layers.dec m.decW (ofLat height width z))

/-- `VqVaeXCiTAutoencoder.forward` in evaluation mode, for a batch of `n` images with `in_channels` channels:
`_vqvae_xcit_autoencoder.py:527-554`. -/
noncomputable def Codec.forward (m : Codec) (fl : ℝ → ℝ) (n : ℕ) (x : Image ℝ) : Except Err Output := do
  let y ← padded m.cfg x
  let z ← m.encode n y
  let record ← runBottleneck fl n m.bottleneck m.cfg.embedDim z
  let latent := record.latent.getD (toLat m.cfg.embedDim z)
  let image ← m.decode n z.height z.width latent
  .ok ⟨image.crop x.height x.width, (z.height, z.width), latent, record.indices⟩

/-- `VqVaeProjector.forward` for a batch of `n` images with `in_channels` channels: `_vqvae_projector.py:44-50`; the indices
may be None, then an assertion fails. -/
noncomputable def Codec.project (m : Codec) (fl : ℝ → ℝ) (n : ℕ) (x : Image ℝ) : Except Err (Option (Pixel → ℕ)) := do
  let z ← m.encode n x
  let record ← runBottleneck fl n m.bottleneck m.cfg.embedDim z
  .ok record.indices

end Verif.Models.VqVaeNet
