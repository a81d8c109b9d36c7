import Verif.Models.HificNet
import Verif.Vct.Patcher
import Verif.Vct.Report
import Verif.Vct.Pipeline
import Mathlib.Analysis.SpecialFunctions.Sigmoid

/-!
Model of the values that `VCTPipeline.forward` computes in evaluation mode, for all weights:
`/repo/projects/torch_vct/model_pipeline.py`, `neural/transforms.py`, `neural/entropy_model.py` and `neural/patcher.py`.

Simplifications: real numbers instead of floats; the transformers are arbitrary functions of the tokens of one window
(torch treats the windows as a batch, and nothing in `entropy_model_layers.py` mixes the entries of a batch; dropout and
stochastic depth do nothing in evaluation mode); the cache of a pass is left out (it is transparent, C123), so is the
division of the frames into chunks (`max_frames`, C33); `context_len` has its default 2; `inplace=True` of the
activations is not modelled (their inputs are not used again).
-/

namespace Verif.Vct.Net

open Verif Verif.Functional Verif.Models Verif.Models.HificNet

/-! ### Layers -/

/-- layers_utils.py:13-25 `make_conv`. -/
noncomputable def makeConv (cin kernel stride : ℕ) (w : ConvW) (x : Image ℝ) : Image ℝ :=
  HificNet.conv2d cin kernel stride (kernel / 2) w x

/-- layers_utils.py:28-41 `make_deconv`. -/
noncomputable def makeDeconv (cin kernel stride : ℕ) (w : ConvW) (x : Image ℝ) : Image ℝ :=
  convTranspose2d cin kernel stride (kernel / 2) (stride - 1) w x

/-- The parameters of a GDN layer after the reparametrisation of compressai. -/
structure GdnW where
  beta : ℕ → ℝ
  gamma : ℕ → ℕ → ℝ

/-- `compressai.layers.GDN(channels, inverse)` (transforms.py:31-35, 82-86). -/
noncomputable def gdn (channels : ℕ) (inverse : Bool) (w : GdnW) (x : Image ℝ) : Image ℝ :=
  { x with pix := fun b c i j =>
      let norm := w.beta c + ∑ k ∈ Finset.range channels, w.gamma c k * x.pix b k i j ^ 2
      x.pix b c i j * if inverse then √norm else 1 / √norm }

/-- `nn.LeakyReLU(negative_slope=0.01)` (model_pipeline.py:96, 130). -/
noncomputable def leakyRelu (x : Image ℝ) : Image ℝ :=
  { x with pix := fun b c i j => if 0 ≤ x.pix b c i j then x.pix b c i j else 1 / 100 * x.pix b c i j }

/-- The parameters of a residual unit. -/
structure UnitW where
  conv0 : ConvW
  conv1 : ConvW
  conv2 : ConvW

/-- `ResidualUnit.forward` (transforms.py:115-134); the one inside of compressai's `AttentionBlock` is the same. -/
noncomputable def residualUnit (N : ℕ) (w : UnitW) (x : Image ℝ) : Image ℝ :=
  let y := relu (makeConv N 1 1 w.conv0 x)
  let y := relu (makeConv (N / 2) 3 1 w.conv1 y)
  let y := makeConv (N / 2) 1 1 w.conv2 y
  relu (add y x)

/-- Residual units in a row (transforms.py:172-173, 241-242). -/
noncomputable def units (N : ℕ) (w : ℕ → UnitW) (n : ℕ) (x : Image ℝ) : Image ℝ :=
  (List.range n).foldl (fun x k => residualUnit N (w k) x) x

/-- The parameters of an attention block. -/
structure AttentionW where
  unitsA : ℕ → UnitW
  unitsB : ℕ → UnitW
  convB : ConvW

/-- `a * torch.sigmoid(b)`. -/
noncomputable def gate (a b : Image ℝ) : Image ℝ :=
  { a with pix := fun k c i j => a.pix k c i j * Real.sigmoid (b.pix k c i j) }

/-- `compressai.layers.AttentionBlock(N)` (transforms.py:182, 186, 246, 250). -/
noncomputable def attentionBlock (N : ℕ) (w : AttentionW) (x : Image ℝ) : Image ℝ :=
  let a := units N w.unitsA 3 x
  let b := makeConv N 1 1 w.convB (units N w.unitsB 3 x)
  add (gate a b) x

/-! ### Transforms -/

/-- The parameters of `ConvGDNAnalysis` or `ConvGDNSynthesis`, by number of the layer. -/
structure ConvGdnW where
  conv : ℕ → ConvW
  gdn : ℕ → GdnW

/-- `ConvGDNAnalysis.forward` on one frame (transforms.py:29-37, 61); `n` is `network_channels`. -/
noncomputable def convGdnAnalysis (n : ℕ) (w : ConvGdnW) (x : Image ℝ) : Image ℝ :=
  let x := gdn n false (w.gdn 0) (makeConv 3 5 2 (w.conv 0) x)
  let x := gdn n false (w.gdn 1) (makeConv n 5 2 (w.conv 1) x)
  let x := gdn n false (w.gdn 2) (makeConv n 5 2 (w.conv 2) x)
  makeConv n 5 2 (w.conv 3) x

/-- `ConvGDNSynthesis.forward` on one frame, before its crop (transforms.py:78-88, 110); `c` is
`compression_channels`. -/
noncomputable def convGdnSynthesis (n c : ℕ) (w : ConvGdnW) (x : Image ℝ) : Image ℝ :=
  let x := gdn n true (w.gdn 0) (makeDeconv c 5 2 (w.conv 0) x)
  let x := gdn n true (w.gdn 1) (makeDeconv n 5 2 (w.conv 1) x)
  let x := gdn n true (w.gdn 2) (makeDeconv n 5 2 (w.conv 2) x)
  makeDeconv n 5 2 (w.conv 3) x

/-- The parameters of `ELICAnalysis` or `ELICSynthesis`: convolutions, residual units (by stage and number) and attention
blocks. -/
structure ElicW where
  conv : ℕ → ConvW
  units : ℕ → ℕ → UnitW
  attn : ℕ → AttentionW

/-- `ELICAnalysis.forward` on one frame (transforms.py:172-187, 193-205); `ch` is the list `channels` after line 175. -/
noncomputable def elicAnalysis (blocks : ℕ) (ch : ℕ → ℕ) (w : ElicW) (x : Image ℝ) : Image ℝ :=
  let x := units (ch 1) (w.units 0) blocks (makeConv (ch 0) 5 2 (w.conv 0) x)
  let x := units (ch 2) (w.units 1) blocks (makeConv (ch 1) 5 2 (w.conv 1) x)
  let x := attentionBlock (ch 2) (w.attn 0) x
  let x := units (ch 3) (w.units 2) blocks (makeConv (ch 2) 5 2 (w.conv 2) x)
  attentionBlock (ch 4) (w.attn 1) (makeConv (ch 3) 5 2 (w.conv 3) x)

/-- `ELICSynthesis.forward` on one frame, before its crop (transforms.py:241-255, 271-283); `ch` is the list `channels`
after line 244. -/
noncomputable def elicSynthesis (blocks : ℕ) (ch : ℕ → ℕ) (w : ElicW) (x : Image ℝ) : Image ℝ :=
  let x := attentionBlock (ch 0) (w.attn 0) x
  let x := units (ch 1) (w.units 0) blocks (makeDeconv (ch 0) 5 2 (w.conv 0) x)
  let x := attentionBlock (ch 2) (w.attn 1) (makeDeconv (ch 1) 5 2 (w.conv 1) x)
  let x := units (ch 2) (w.units 1) blocks x
  let x := units (ch 3) (w.units 2) blocks (makeDeconv (ch 2) 5 2 (w.conv 2) x)
  makeDeconv (ch 3) 5 2 (w.conv 3) x

/-- The two pairs of transforms, with their parameters. -/
inductive Transforms
  | convGDN (networkChannels compressionChannels : ℕ) (analysis synthesis : ConvGdnW)
  | elic (blocks : ℕ) (chAnalysis chSynthesis : ℕ → ℕ) (analysis synthesis : ElicW)

/-- `self.analysis_transform` on one frame. -/
noncomputable def Transforms.analysis : Transforms → Image ℝ → Image ℝ
  | .convGDN n _ w _, x => convGdnAnalysis n w x
  | .elic blocks ch _ w _, x => elicAnalysis blocks (fun k => if k = 0 then 3 else ch (k - 1)) w x

/-- `self.synthesis_transform` on one frame, before its crop. -/
noncomputable def Transforms.synthesis : Transforms → Image ℝ → Image ℝ
  | .convGDN n c _ w, x => convGdnSynthesis n c w x
  | .elic blocks _ ch _ w, x => elicSynthesis blocks (fun k => if k = 0 then ch 0 else ch (k - 1)) w x

/-- `factor` (model_pipeline.py:383-390): only `ConvGDNAnalysis` says how often it halves the size. -/
def Transforms.factor : Transforms → ℕ
  | .convGDN .. => 2 ^ (4 + 0)
  | .elic .. => 2 ^ (0 + 0)

/-- The numbers of channels that the analysis transform gives and the synthesis transform takes. -/
def Transforms.channels : Transforms → ℕ × ℕ
  | .convGDN _ c _ _ => (c, c)
  | .elic _ chA chS _ _ => (chA 3, chS 0)

/-! ### Entropy model -/

/-- The tokens of the window of size `p` number `(I, J)` with stride 4 (patcher.py:59-100, 110-190): reflected at the
borders of the latent. -/
def window (p : ℕ) (x : Image ℝ) (b I J k c : ℕ) : ℝ :=
  x.pix b c (reflect x.height ((I * 4 + k / p : ℕ) - ((p - 4) / 2 : ℕ) : ℤ))
    (reflect x.width ((J * 4 + k % p : ℕ) - ((p - 4) / 2 : ℕ) : ℤ))

/-- `unpatch` with the size of the latent as crop (patcher.py:192-228). -/
def unwindow (height width : ℕ) (t : ℕ → ℕ → ℕ → ℕ → ℕ → ℝ) : Image ℝ :=
  ⟨height, width, fun b c i j => t b (i / 4) (j / 4) (i % 4 * 4 + j % 4) c⟩

/-- `len` tokens of `dim` numbers. -/
abbrev Tokens (len dim : ℕ) := Fin len → Fin dim → ℝ

/-- The tokens of a window as the transformers see them. -/
def tokens (p len dim : ℕ) (x : Image ℝ) (b I J : ℕ) : Tokens len dim := fun k c => window p x b I J k c

/-- Entry of a sequence of tokens. -/
def entry {len dim : ℕ} (t : Tokens len dim) (k c : ℕ) : ℝ :=
  if h : k < len ∧ c < dim then t ⟨k, h.1⟩ ⟨c, h.2⟩ else 0

/-- What the decoder of the entropy model says about the tokens of one window. -/
structure Prediction (C D : ℕ) where
  mean : Tokens 16 C
  scale : Tokens 16 C
  features : Tokens 16 D

/-- The parameters of the pipeline: `C` latent channels, `D` dimensions of the transformers.  `sep` is
`process_previous_latent_q` after the patcher (entropy_model.py:229-233), `predict` is `_get_transformer_output`
(entropy_model.py:257-298) with the context of the window, `pad` is `_temporal_pad_token_maker`
(model_pipeline.py:73-81), `deq` are the convolutions of the dequantizer (model_pipeline.py:94-97, 128-132). -/
structure Codec (C D : ℕ) where
  transforms : Transforms
  sep : Tokens 64 C → Tokens 64 D
  predict : List (Tokens 64 D) → Tokens 16 C → Prediction C D
  bn : BnCfg
  bound : ℝ
  pad : ℕ → ℝ
  deq : ℕ → ConvW

variable {C D : ℕ}

/-- `process_previous_latent_q` (entropy_model.py:204-235), by batch entry and window. -/
def Codec.process (m : Codec C D) (x : Image ℝ) (b I J : ℕ) : Tokens 64 D := m.sep (tokens 8 64 C x b I J)

/-- What coding a scene leaves: quantised latent, likelihoods (by batch entry, window, token and channel), features, and the
processed latents that the next scene sees. -/
structure Coded (D : ℕ) where
  latent : Image ℝ
  lik : ℕ → ℕ → ℕ → ℕ → ℕ → ℝ
  features : Image ℝ
  state : List (ℕ → ℕ → ℕ → Tokens 64 D)

/-- `round_st` in value (entropy_model.py:202, 358). -/
noncomputable def roundImage (x : Image ℝ) : Image ℝ := { x with pix := fun b c i j => roundHalfEven (x.pix b c i j) }

/-- `VCTEntropyModel.forward` in evaluation mode (entropy_model.py:333-403), given the processed previous latents; the state is
filled in by the caller. -/
noncomputable def Codec.entropyForward (m : Codec C D) (x : Image ℝ) (previous : List (ℕ → ℕ → ℕ → Tokens 64 D)) :
    Coded D :=
  let encoded := Pipe.encodedSeqs 2 previous
  let prediction b I J := m.predict (encoded.map fun s => s b I J) (tokens 4 16 C (roundImage x) b I J)
  let out b I J k c := bnForward m.bn m.bound false 0 (window 4 x b I J k c) (entry (prediction b I J).scale k c)
    (entry (prediction b I J).mean k c)
  { latent := unwindow x.height x.width fun b I J k c => (out b I J k c).1
    lik := fun b I J k c => (out b I J k c).2
    features := unwindow x.height x.width fun b I J k c => entry (prediction b I J).features k c
    state := [] }

/-- `_temporal_pad_token_maker(scene.shape)` (model_pipeline.py:77-81, 213). -/
def Codec.fake (m : Codec C D) (x : Image ℝ) : Image ℝ := { x with pix := fun _ c _ _ => m.pad c * 1 }

/-- `encode_scenes` (model_pipeline.py:197-283) with `decode_Iscene` and `decode_Pscene` for the states (287-321), for the
scenes `x 0, x 1, …`. -/
noncomputable def Codec.code (m : Codec C D) (x : ℕ → Image ℝ) : ℕ → Coded D
  | 0 =>
    let o := m.entropyForward (x 0) [m.process (m.fake (x 0))]
    { o with state := [m.process o.latent] }
  | t + 1 =>
    let before := m.code x t
    let o := m.entropyForward (x (t + 1)) before.state
    { o with state := Pipe.sliceLast 2 (before.state ++ [m.process o.latent]) }

/-- `Dequantizer.forward` (model_pipeline.py:128-132, 152) with `ResidualBlock.forward` (94-109). -/
noncomputable def Codec.dequantize (m : Codec C D) (latent features : Image ℝ) : Image ℝ :=
  let x := leakyRelu (HificNet.conv2d D 1 1 0 (m.deq 0) features)
  let y := leakyRelu (HificNet.conv2d C 3 1 1 (m.deq 1) x)
  let y := leakyRelu (HificNet.conv2d C 3 1 1 (m.deq 2) y)
  add latent (add y x)

/-! ### Pipeline -/

/-- A batch of clips: `pix t b c i j`. -/
structure Clip where
  length : ℕ
  height : ℕ
  width : ℕ
  pix : ℕ → ℕ → ℕ → ℕ → ℕ → ℝ

/-- Frame `t` of all clips. -/
def Clip.frame (v : Clip) (t : ℕ) : Image ℝ := ⟨v.height, v.width, v.pix t⟩

/-- `_pad` (model_pipeline.py:371-395): amount for one axis. -/
def padAmount (factor n : ℕ) : ℕ := (factor - n % factor) % factor

/-- `torch.nn.functional.pad(x, …, "reflect")` of one frame (model_pipeline.py:395). -/
def padFrame (factor : ℕ) (x : Image ℝ) : Image ℝ where
  height := x.height + padAmount factor x.height
  width := x.width + padAmount factor x.width
  pix b c i j := x.pix b c (reflect x.height i) (reflect x.width j)

/-- Whether the reflections of the patcher are possible for the windows of size 8 and 4 (patcher.py:95-100). -/
def Fits (n : ℕ) : Prop := 2 < n ∧ ceilDiv n 4 * 4 - n + 2 < n

/-- The unquantised latent of frame `t` (model_pipeline.py:411-418). -/
noncomputable def Codec.latents (m : Codec C D) (v : Clip) (t : ℕ) : Image ℝ :=
  m.transforms.analysis (padFrame m.transforms.factor (v.frame t))

/-- What is returned: the reconstruction and the likelihoods `[T, B', 16, C]`. -/
structure Output where
  video : Clip
  lik : ℕ → ℕ → ℕ → ℕ → ℕ → ℕ → ℝ

open Classical in
/-- `VCTPipeline.forward` in evaluation mode and not coding to strings (model_pipeline.py:397-444); `none` if reflection
padding raises, there is no frame to stack, or the transforms do not have the channels of the entropy model. -/
noncomputable def Codec.forward (m : Codec C D) (v : Clip) : Option Output :=
  if 0 < v.length ∧ m.transforms.channels = (C, C) ∧
      padAmount m.transforms.factor v.height < v.height ∧ padAmount m.transforms.factor v.width < v.width ∧
      Fits (m.latents v 0).height ∧ Fits (m.latents v 0).width then
    let coded := m.code (m.latents v)
    let frame t := m.transforms.synthesis (m.dequantize (coded t).latent (coded t).features)
    some
      { video := ⟨v.length, min v.height (frame 0).height, min v.width (frame 0).width, fun t => (frame t).pix⟩
        lik := fun t => (coded t).lik }
  else none

end Verif.Vct.Net
