import Verif.Vct.PropsPipeline
import Mathlib.Analysis.SpecialFunctions.Log.Basic

/-!
# Calls on the video model over time

`VCTPipeline` (`/repo/projects/torch_vct/model_pipeline.py`) and `VCTModule`
(`/repo/projects/torch_vct/model_lightning.py`) as objects with state: the mode flags of module and pipeline, the
flag `_code_to_strings` and whether the coding tables exist.  A tensor is its shape; what the networks produce for a
video is a parameter.
-/

namespace Verif.Vct.Hist

open Pipe

/-- Exceptions. -/
inductive Err
  /-- `AssertionError`: not a batch of one (entropy_model.py:482, model_pipeline.py:474-476, model_lightning.py:126) -/
  | batch
  /-- `AssertionError`: the module is in training mode (model_lightning.py:127) -/
  | mode
  /-- `ValueError` of `validate_shape` (video_data_api.py:42-47) -/
  | shape
  /-- `RuntimeError` of the first convolution: not three channels -/
  | conv
  /-- reflection padding or chunking, see `Pipe.SizeErr` -/
  | size (e : SizeErr)
  /-- `RuntimeError` of `torch.stack`: tensors of different shapes -/
  | stack
  /-- `RuntimeError` of `torch.stack`: no tensors -/
  | empty
  /-- `ValueError` of compressai: the coding tables have not been built -/
  | tables
  /-- `AssertionError` about the number of dimensions (model_pipeline.py:493, 496) -/
  | dims
  /-- `ZeroDivisionError` -/
  | zeroDiv
  deriving DecidableEq

/-- A video of shape `[B, T, c, H, W]`. -/
structure Video where
  B : ℕ
  T : ℕ
  c : ℕ
  H : ℕ
  W : ℕ
  deriving DecidableEq

/-- The state that survives a call. -/
structure St where
  /-- `VCTModule.training` -/
  moduleTraining : Bool
  /-- `VCTPipeline.training` (and that of everything in it) -/
  training : Bool
  /-- `VCTPipeline._code_to_strings` -/
  strings : Option Bool
  /-- whether the tables of the bottleneck have been built -/
  tables : Bool
  deriving DecidableEq

/-- A new module: `nn.Module` starts in training mode; model_pipeline.py:193; compressai builds no tables at
construction. -/
def fresh : St := ⟨true, true, none, false⟩

/-- What does not change: the transforms, the compression channels, and what the networks and the coder give for a
video in evaluation mode: the likelihoods of its first scene and, per later scene, the total number of bytes of
its strings. -/
structure Model where
  t : Transform
  ch : ℕ
  lik0 : Video → List ℝ
  bytes : Video → ℕ → ℕ

/-- Size errors as exceptions of the calls. -/
def liftS {α : Type} : Except SizeErr α → Except Err α
  | .ok a => .ok a
  | .error e => .error (.size e)

/-- One axis of the latent: model_pipeline.py:411-418 (the padding is skipped in training), transforms.py. -/
def latentAxis (t : Transform) (training : Bool) (n : ℕ) : ℕ :=
  t.analysis (if training then n else n + padAmount t n)

/-- Number of decoder windows of one scene (patcher.py, stride 4). -/
def windows (t : Transform) (training : Bool) (v : Video) : ℕ :=
  ceilDiv (latentAxis t training v.H) 4 * ceilDiv (latentAxis t training v.W) 4

/-- Shape of the likelihood that coding scene `i` yields.  Scene 0: model_pipeline.py:218-226, always through
`VCTEntropyModel.forward`, which gives `[b', 16, C]` (entropy_model.py:394-396).  Later scenes: model_pipeline.py:239-253,
through `compress` in evaluation mode if `_code_to_strings` is set; that asserts a batch of one (entropy_model.py:481-482),
needs the tables, and gives the number of bits as a tensor of shape `[1]` (504, 531). -/
def likShape (s : St) (b p ch i : ℕ) : Except Err (List ℕ) :=
  if i = 0 then .ok [b * p, 16, ch]
  else if !s.training && s.strings == some true then
    if b ≠ 1 then .error .batch
    else if s.tables then .ok [1] else .error .tables
  else .ok [b * p, 16, ch]

/-- The loop over the scenes (model_pipeline.py:268-283, 424-428). -/
def sceneShapes (s : St) (b p ch : ℕ) : ℕ → ℕ → Except Err (List (List ℕ))
  | _, 0 => .ok []
  | i, n + 1 =>
    match likShape s b p ch i with
    | .error e => .error e
    | .ok x =>
      match sceneShapes s b p ch (i + 1) n with
      | .error e => .error e
      | .ok xs => .ok (x :: xs)

/-- Shape of `torch.stack` (model_pipeline.py:430-431). -/
def stack : List (List ℕ) → Except Err (List ℕ)
  | [] => .error .empty
  | x :: xs => if xs.all (· == x) then .ok ((xs.length + 1) :: x) else .error .stack

/-- `VCTPipeline.forward` (model_pipeline.py:397-444): shapes of the frames and of the likelihoods.  It changes no state.
Sizes are `Pipe.forwardAxis`, height before width. -/
def forward (m : Model) (s : St) (v : Video) : Except Err (List ℕ × List ℕ) :=
  if v.c ≠ 3 then .error .shape
  else match liftS (forwardAxis m.t s.training (v.B * v.T) v.H) with
  | .error e => .error e
  | .ok h =>
    match liftS (forwardAxis m.t s.training (v.B * v.T) v.W) with
    | .error e => .error e
    | .ok w =>
      match sceneShapes s v.B (windows m.t s.training v) m.ch 0 v.T with
      | .error e => .error e
      | .ok shapes =>
        match stack shapes with
        | .error e => .error e
        | .ok l => .ok ([v.B, v.T, 3, h, w], l)

/-- `_prepare_for_compression` (model_pipeline.py:463-467); `self` is the pipeline, so the flag of the module is not
touched. -/
def prepare (s : St) : St := { s with training := false, strings := some true, tables := true }

/-- `compute_rate` without `per_frame` (model_pipeline.py:458-459). -/
noncomputable def rate (lik : List ℝ) : ℝ := (lik.map Real.log).sum / -Real.log 2

/-- The bits recorded for scene `i` (model_pipeline.py:490-497). -/
noncomputable def frameBits (m : Model) (s : St) (v : Video) (i : ℕ) : Except Err ℝ :=
  match likShape s v.B (windows m.t false v) m.ch i with
  | .error e => .error e
  | .ok l =>
    if i = 0 then
      if l.length = 3 then .ok (rate (m.lik0 v)) else .error .dims
    else if l.length = 1 then .ok ((m.bytes v i * 8 : ℕ) : ℝ) else .error .dims

/-- The loop of model_pipeline.py:488-497 from scene `i` on. -/
noncomputable def allBits (m : Model) (s : St) (v : Video) : ℕ → ℕ → Except Err (List ℝ)
  | _, 0 => .ok []
  | i, n + 1 =>
    match frameBits m s v i with
    | .error e => .error e
    | .ok x =>
      match allBits m s v (i + 1) n with
      | .error e => .error e
      | .ok xs => .ok (x :: xs)

/-- One axis of the latent in `compress_video` (model_pipeline.py:482-483), with the exceptions of padding, chunking and
patching. -/
def compressAxis (t : Transform) (bt n : ℕ) : Except SizeErr ℕ :=
  match padAxis (padAmount t n) n with
  | .error e => .error e
  | .ok p => if t.chunkOk bt then entropyAxis (t.analysis p) else .error .chunk

/-- `VCTPipeline.compress_video` (model_pipeline.py:469-500) on a CPU: the new state, and the shape of the stacked
latents with the bits per frame.  `torch.stack` of the latents fails for no frames. -/
noncomputable def compressVideo (m : Model) (s : St) (v : Video) : St × Except Err (List ℕ × List ℝ) :=
  let s' := prepare s
  (s',
    if v.B ≠ 1 then .error .batch
    else if v.c ≠ 3 then .error .conv
    else match liftS (compressAxis m.t (v.B * v.T) v.H) with
    | .error e => .error e
    | .ok h =>
      match liftS (compressAxis m.t (v.B * v.T) v.W) with
      | .error e => .error e
      | .ok w =>
        match allBits m s' v 0 v.T with
        | .error e => .error e
        | .ok bits => if bits = [] then .error .empty else .ok ([1, v.T, m.ch, h, w], bits))

/-- `VCTPipeline.decompress_video` (model_pipeline.py:502-518) on latents `[B, T, C, h, w]`: the synthesis transform, which
crops to the requested size (transforms.py:111-112, 283-284).  No state is read or changed. -/
def decompressVideo (m : Model) (v : Video) (lat : List ℕ) : Except Err (List ℕ) :=
  match lat with
  | [b, T, _, h, w] =>
    if m.t.chunkOk (b * T) then .ok [b, T, 3, min v.H (m.t.synthesis h), min v.W (m.t.synthesis w)]
    else .error (.size .chunk)
  | _ => .error .dims

/-- The second half of `VCTModule.test_step` (model_lightning.py:160-185): coding and the two rates in bits per pixel. -/
noncomputable def testTail (m : Model) (s : St) (v : Video) : St × Except Err (ℝ × ℝ) :=
  let r := compressVideo m s v
  (r.1, match r.2 with
    | .error e => .error e
    | .ok (lat, bits) =>
      match decompressVideo m v lat with
      | .error e => .error e
      | .ok _ =>
        if v.H * v.W * (v.T - 1) = 0 then .error .zeroDiv
        else .ok (bits.sum / (v.H * v.W * v.T : ℕ), (bits.drop 1).sum / (v.H * v.W * (v.T - 1) : ℕ)))

/-- `VCTModule.test_step` (model_lightning.py:119-185): the returned rates (the PSNR is left out). -/
noncomputable def testStep (m : Model) (s : St) (runFwd : Bool) (v : Video) : St × Except Err (ℝ × ℝ) :=
  if v.B ≠ 1 then (s, .error .batch)
  else if s.moduleTraining then (s, .error .mode)
  else if runFwd then
    let s1 := { s with strings := some false }
    match forward m s1 v with
    | .error e => (s1, .error e)
    | .ok _ => if v.H * v.W * (v.T - 1) = 0 then (s1, .error .zeroDiv) else testTail m s1 v
  else testTail m s v

/-- The calls of a user. -/
inductive Op
  /-- `VCTModule.train(b)`, which reaches the pipeline too -/
  | moduleTrain (b : Bool)
  /-- `VCTModule.model.train(b)` -/
  | pipeTrain (b : Bool)
  | forward (v : Video)
  | compress (v : Video)
  | decompress (v : Video) (lat : List ℕ)
  | test (runFwd : Bool) (v : Video)

/-- The state after one call, whether it returned or raised. -/
noncomputable def step (m : Model) (s : St) : Op → St
  | .moduleTrain b => { s with moduleTraining := b, training := b }
  | .pipeTrain b => { s with training := b }
  | .forward _ => s
  | .compress v => (compressVideo m s v).1
  | .decompress _ _ => s
  | .test r v => (testStep m s r v).1

/-- The state after a history of calls. -/
noncomputable def run (m : Model) (s : St) (ops : List Op) : St := ops.foldl (step m) s

/-! ### Construction -/

/-- The transforms as constructed by a user, with the arguments that decide the channels. -/
inductive Analysis
  /-- `ConvGDNAnalysis(compression_channels)` -/
  | convGDN (c : ℕ)
  /-- `ELICAnalysis(channels, compression_channels)` -/
  | elic (channels : List ℕ) (c : Option ℕ)
  deriving DecidableEq

/-- See `Analysis`. -/
inductive Synthesis
  /-- `ConvGDNSynthesis(compression_channels)` -/
  | convGDN (c : ℕ)
  /-- `ELICSynthesis(channels, output_channels)` -/
  | elic (channels : List ℕ) (out : Option ℕ)
  deriving DecidableEq

/-- Exceptions of the constructors. -/
inductive CErr
  /-- `ValueError` of an ELIC transform -/
  | value
  /-- `AssertionError` "Mismatched compression_channels" -/
  | mismatch
  deriving DecidableEq

/-- The constructed object: what `compression_channels` reports, and the channels of the last convolution
(transforms.py:17-46, 158-191). -/
def Analysis.build : Analysis → Except CErr (ℕ × ℕ)
  | .convGDN c => .ok (c, c)
  | .elic channels c =>
    if channels.length ≠ 4 then .error .value
    else if c.isSome && c != channels.getLast? then .error .value
    else .ok (c.getD (channels.getLastD 0), channels.getLastD 0)

/-- The constructed object: what `compression_channels` reports, the input channels of the first deconvolution and the
output channels of the last (transforms.py:65-92, 225-259). -/
def Synthesis.build : Synthesis → Except CErr (ℕ × ℕ × ℕ)
  | .convGDN c => .ok (192, c, 3)
  | .elic channels out =>
    if channels.length ≠ 4 then .error .value
    else if out.isSome && out != channels.getLast? then .error .value
    else .ok (channels.headD 0, channels.headD 0, channels.getLastD 0)

/-- `VCTPipeline.__init__` (model_pipeline.py:160-193) with freshly constructed transforms: the real channels of analysis,
entropy model and synthesis (input and output). -/
def construct (a : Analysis) (y : Synthesis) (c : ℕ) : Except CErr (ℕ × ℕ × ℕ × ℕ) :=
  match a.build with
  | .error e => .error e
  | .ok (ra, ca) =>
    match y.build with
    | .error e => .error e
    | .ok (ry, cy, co) =>
      if ra ≠ c then .error .mismatch
      else if ry ≠ c then .error .mismatch
      else .ok (ca, c, cy, co)

end Verif.Vct.Hist
