import Verif.Functional.Color

/-!
Model of what the image loggers of the training scripts show: `WandbImageCallback` of
`/repo/projects/deep_video_compression/train.py`, of `/repo/projects/illm/train.py` and of
`/repo/projects/torch_vct/model_train.py`, with `torch.cat` and torchvision's `make_grid` (0.13 and later).

Real numbers stand for floating point numbers.  The networks are arbitrary functions: during the callbacks the weights do
not change.  Copies between devices have no effect here; that `Tensor.to` may not copy is part of C103.
-/

namespace Verif.Train.Shown

open Verif.Functional (Rgb opticalFlowToColor)

/-- The exceptions. -/
inductive Err | index | runtime | value | zeroDivision
deriving DecidableEq, Repr

/-- A tensor `[n, c, h, w]`. -/
structure Images where
  n : ℕ
  c : ℕ
  h : ℕ
  w : ℕ
  px : ℕ → ℕ → ℕ → ℕ → ℝ

/-- A tensor `[c, h, w]`. -/
structure Image where
  c : ℕ
  h : ℕ
  w : ℕ
  px : ℕ → ℕ → ℕ → ℝ

/-- A tensor `[n, t, c, h, w]`: clips of `t` frames. -/
structure Clips where
  n : ℕ
  t : ℕ
  c : ℕ
  h : ℕ
  w : ℕ
  px : ℕ → ℕ → ℕ → ℕ → ℕ → ℝ

/-- `torch.cat(l, dim=-1)` of images: an empty list or different other sizes raise `RuntimeError`. -/
def catWidth : List Images → Except Err Images
  | [] => .error .runtime
  | [a] => .ok a
  | a :: l => do
    let b ← catWidth l
    if a.n = b.n ∧ a.c = b.c ∧ a.h = b.h then
      .ok ⟨a.n, a.c, a.h, a.w + b.w, fun n c y x => if x < a.w then a.px n c y x else b.px n c y (x - a.w)⟩
    else .error .runtime

/-- `torch.cat(l, dim=-2)` of single images. -/
def catHeight : List Image → Except Err Image
  | [] => .error .runtime
  | [a] => .ok a
  | a :: l => do
    let b ← catHeight l
    if a.c = b.c ∧ a.w = b.w then
      .ok ⟨a.c, a.h + b.h, a.w, fun c y x => if y < a.h then a.px c y x else b.px c (y - a.h) x⟩
    else .error .runtime

/-- `list(mosaic)`: the images of a batch. -/
def Images.toList (t : Images) : List Image := (List.range t.n).map fun k => ⟨t.c, t.h, t.w, t.px k⟩

/-- `torch.clip(_, min=0, max=1.0)`. -/
noncomputable def clip01 (x : ℝ) : ℝ := min (max x 0) 1

/-! ### Deep video compression -/

/-- The keys: `deep_video_compression/train.py:39`, `49`. -/
inductive Key | flow | image1 | image2 | image2Est
deriving DecidableEq, Repr

/-- Their names: `deep_video_compression/train.py:39`, `49`. -/
def Key.name : Key → String
  | .flow => "flow"
  | .image1 => "image1"
  | .image2 => "image2"
  | .image2Est => "image2_est"

/-- `keys`: `deep_video_compression/train.py:39`, `49`. -/
def keys : List Key := [.flow, .image1, .image2, .image2Est]

/-- A dictionary of lists of images. -/
abbrev ImageDict := Key → Option (List Images)

/-- One turn of the loop of `append_images`: `setdefault(key, []).append(image)`: `deep_video_compression/train.py:42`. -/
def ImageDict.append (d : ImageDict) (key : Key) (t : Images) : ImageDict :=
  fun k => if k = key then some ((d key).getD [] ++ [t]) else d k

/-- `append_images`: `deep_video_compression/train.py:38-43`; the group is the tuple `OutputTensors`, some of whose entries may be `None`. -/
def appendImages (d : ImageDict) (group : List (Option Images)) : Except Err ImageDict :=
  keys.zipIdx.foldlM (fun d p => match group[p.2]? with
    | none => .error .index
    | some none => .ok d
    | some (some t) => .ok (d.append p.1 t)) d

/-- The flow vectors of an image with the flow in its first two channels, row by row. -/
def vectors (m : Image) : List (ℝ × ℝ) :=
  (List.range (m.h * m.w)).map fun k => (m.px 0 (k / m.w) (k % m.w), m.px 1 (k / m.w) (k % m.w))

/-- A channel of a colour. -/
def channel (p : Rgb) (ch : ℕ) : ℝ := if ch = 0 then p.r else if ch = 1 then p.g else p.b

/-- A channel of the colour at a position; there is one for every vector. -/
def channelAt (out : List Rgb) (k ch : ℕ) : ℝ := (out[k]?.map fun p => channel p ch).getD 0

/-- `optical_flow_to_color(mosaic.unsqueeze(0))[0]`: `deep_video_compression/train.py:56`; the vectors of the mosaic are the pixels of a batch with one
image.  Fewer than two channels raise `IndexError`; the range checks of the conversion raise `ValueError`. -/
noncomputable def colour (m : Image) : Except Err Image :=
  if m.c < 2 then .error .index
  else match opticalFlowToColor (vectors m) with
    | .error _ => .error .value
    | .ok out => .ok ⟨3, m.h, m.w, fun ch y x => channelAt out (y * m.w + x) ch⟩

/-- What is sent to the logger: the name, the image and the step. -/
structure Entry where
  name : String
  image : Image
  step : ℕ

/-- The mosaic of a key: `deep_video_compression/train.py:53-57`. -/
noncomputable def mosaic (key : Key) (images : List Images) : Except Err Image := do
  let wide ← catWidth images
  let m ← catHeight wide.toList
  let m ← if key = .flow then colour m else .ok m
  return ⟨m.c, m.h, m.w, fun ch y x => clip01 (m.px ch y x)⟩

/-- `log_images`: `deep_video_compression/train.py:45-63`. -/
noncomputable def logImages (baseKey : String) (d : ImageDict) (step : ℕ) : Except Err (List Entry) :=
  keys.foldlM (fun sent key => match d key with
    | none => .ok sent
    | some images => do
      let m ← mosaic key images
      return sent ++ [⟨baseKey ++ "/" ++ key.name, m, step⟩]) []

/-- `batch[:, i]`. -/
def Clips.frame (b : Clips) (i : ℕ) : Except Err Images :=
  if i < b.t then .ok ⟨b.n, b.c, b.h, b.w, fun n => b.px n i⟩ else .error .index

/-- `compress_iframe`: `dvc_module.py:137-151`: the first frames are replaced by what the pretrained model makes of them; other
sizes raise `RuntimeError` (broadcasting of sizes one is left out).  The rate is not used here. -/
def compressIframe (iframe : Images → Images) (b : Clips) : Except Err Clips := do
  let first ← b.frame 0
  let out := iframe first
  if out.n = b.n ∧ out.c = b.c ∧ out.h = b.h ∧ out.w = b.w then
    .ok { b with px := fun n i => if i = 0 then out.px n else b.px n i }
  else .error .runtime

/-- The loop of `on_validation_end`: `deep_video_compression/train.py:69-75`.  `stage` gives the flow and the estimate that
`compute_batch_loss` returns, with the two images, in `OutputTensors`: `_utils.py:97-102`, `156-161`, `227-232`, `288-293`. -/
def pframes (stage : Images → Images → Except Err (Images × Images)) (b : Clips) :
    List ℕ → Images → ImageDict → Except Err ImageDict
  | [], _, d => .ok d
  | i :: is, image1, d => do
    let image2 ← b.frame (i + 1)
    let (flow, est) ← stage image1 image2
    let d ← appendImages d [some flow, some image1, some image2, some est]
    pframes stage b is est d

/-- `on_validation_end`: `deep_video_compression/train.py:65-82`. -/
noncomputable def dvcValidationEnd (iframe : Images → Images) (stage : Images → Images → Except Err (Images × Images))
    (stageName : String) (numPframes : ℕ) (batch : Clips) (step : ℕ) : Except Err (List Entry) := do
  let b ← compressIframe iframe batch
  let image1 ← b.frame 0
  let d ← pframes stage b (List.range numPframes) image1 (fun _ => none)
  logImages ("log_images_stage_" ++ stageName) d step

/-! ### Grids -/

/-- The padding of `make_grid`, which the scripts leave at its default. -/
def padding : ℕ := 2

/-- The grid while it is filled, and the index of the next image. -/
structure Filling where
  k : ℕ
  px : ℕ → ℕ → ℕ → ℝ

/-- One turn of the loops of `make_grid`: after the last image the loops do nothing more. -/
def fillCell (t : Images) (s : Filling) (cell : ℕ × ℕ) : Filling :=
  if t.n ≤ s.k then s
  else
    let top := cell.1 * (t.h + padding) + padding
    let left := cell.2 * (t.w + padding) + padding
    ⟨s.k + 1, fun ch y x =>
      if top ≤ y ∧ y < top + t.h ∧ left ≤ x ∧ x < left + t.w then t.px s.k ch (y - top) (x - left) else s.px ch y x⟩

/-- `torchvision.utils.make_grid(tensor, nrow)` for a tensor of four dimensions with default padding and padding value. -/
def makeGrid (nrow : ℕ) (t : Images) : Except Err Image :=
  let t := if t.c = 1 then { t with c := 3, px := fun n _ => t.px n 0 } else t
  if t.n = 1 then .ok ⟨t.c, t.h, t.w, t.px 0⟩
  else
    let xmaps := min nrow t.n
    if xmaps = 0 then .error .zeroDivision
    else
      let ymaps := (t.n + xmaps - 1) / xmaps
      let cells := (List.range ymaps).flatMap fun y => (List.range xmaps).map fun x => (y, x)
      let s := cells.foldl (fillCell t) ⟨0, fun _ _ _ => 0⟩
      .ok ⟨t.c, (t.h + padding) * ymaps + padding, (t.w + padding) * xmaps + padding, s.px⟩

/-- `torch.clip(outputs, min=0, max=1.0)`. -/
noncomputable def clipped (t : Images) : Images := { t with px := fun n c y x => clip01 (t.px n c y x) }

/-- `_compute_input_output_batch`: `illm/train.py:78-86`: the entries `"image"` and `"image_compressed"`. -/
noncomputable def illmBatch (module : Images → Images) (batch : Images) : Except Err (List (String × Image)) := do
  let image ← makeGrid 8 batch
  let compressed ← makeGrid 8 (clipped (module batch))
  return [("image", image), ("image_compressed", compressed)]

/-- `log_images`: `illm/train.py:62-76`, `model_train.py:37-46`: the entries of the key set, in its order. -/
def sendImages (baseKey : String) (d : List (String × Image)) (step : ℕ) : List Entry :=
  ["image", "image_compressed"].filterMap fun key =>
    (d.lookup key).map fun m => ⟨baseKey ++ "/" ++ key, m, step⟩

/-- `on_validation_end`: `illm/train.py:88-100`; `module` is the codec in evaluation mode. -/
noncomputable def illmValidationEnd (module : Images → Images) (train eval : Images) (step : ℕ) :
    Except Err (List Entry) := do
  let a ← illmBatch module train
  let b ← illmBatch module eval
  return sendImages "train_images" a step ++ sendImages "eval_images" b step

/-- `on_train_epoch_end`: `illm/train.py:102-114`; `module` is the codec in training mode, whose noise is drawn anew for
every pass. -/
noncomputable def illmTrainEnd (module : ℕ → Images → Images) (train eval : Images) (step : ℕ) :
    Except Err (List Entry) := do
  let a ← illmBatch (module 0) train
  let b ← illmBatch (module 1) eval
  return sendImages "model.training_train_images" a step ++ sendImages "model.training_eval_images" b step

/-- `x[0]` of a batch of videos. -/
def Clips.first (b : Clips) : Except Err Images :=
  if b.n = 0 then .error .index else .ok ⟨b.t, b.c, b.h, b.w, b.px 0⟩

/-- `_compute_input_output_batch` of the video project: `model_train.py:48-59`. -/
noncomputable def vctBatch (module : Clips → Clips) (batch : Clips) : Except Err (List (String × Image)) := do
  let out := module batch
  let outputs : Clips := { out with px := fun n t c y x => clip01 (out.px n t c y x) }
  let image ← makeGrid 7 (← batch.first)
  let compressed ← makeGrid 7 (← outputs.first)
  return [("image", image), ("image_compressed", compressed)]

/-- `on_validation_end` of the video project: `model_train.py:61-73`. -/
noncomputable def vctValidationEnd (module : Clips → Clips) (train eval : Clips) (step : ℕ) :
    Except Err (List Entry) := do
  let a ← vctBatch module train
  let b ← vctBatch module eval
  return sendImages "train_images" a step ++ sendImages "eval_images" b step

end Verif.Train.Shown
