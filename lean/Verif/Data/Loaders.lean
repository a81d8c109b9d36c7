import Mathlib.Data.List.Basic
import Mathlib.Data.List.MinMax

/-!
Model of the loaders of the training data: the Kinetics module of the video project
(`/repo/projects/torch_vct/datamodules/kinetics.py`) and the OpenImages module of the image project
(`/repo/projects/illm/open_images_datamodule.py`).

Frames are abstract.  The random transform of a clip is the same for all its frames and gives frames of one size in
training and validation (a crop of 256 by 256), so it is a function on frames; its randomness, and which clips of a video
are sampled, are inputs.  Devices, workers and memory pinning have no effect on the batches.
-/

namespace Verif.Data.Loaders

/-- `RuntimeError` of stacking, `AssertionError` of subsampling, `ValueError`, and `IndexError` of choosing from nothing. -/
inductive Err | stack | assertion | value | index
deriving DecidableEq, Repr

/-! ### Kinetics -/

/-- `video_num_subsampled`: `kinetics.py:40`. -/
inductive Subsample | none | int (n : ℕ) | list (l : List ℕ)

/-- The mode of the transform: `kinetics.py:190`. -/
inductive Mode | train | val
deriving DecidableEq

/-- Position `i` of `linspace(0, t - 1, num)`, truncated; in real arithmetic. -/
def position (t num i : ℕ) : ℕ := i * (t - 1) / (num - 1)

/-- `UniformTemporalSubsample(num)` of pytorchvideo: it asserts that there are frames and samples. -/
def uniform {F : Type} (num : ℕ) (frames : List F) : Except Err (List F) :=
  if 0 < num ∧ 0 < frames.length then .ok ((List.range num).filterMap fun i => frames[position frames.length num i]?)
  else .error .assertion

/-- The temporal part of `_video_transform`: `kinetics.py:204-221`; `draw` is the position `RandomChoice` draws. -/
def temporal {F : Type} (s : Subsample) (mode : Mode) (draw : ℕ) (frames : List F) : Except Err (List F) :=
  match s, mode with
  | .none, _ => .ok frames
  | .int n, _ => uniform n frames
  | .list l, .train => match l[draw]? with
    | some n => uniform n frames
    | none => .error .index
  | .list l, .val => uniform (l.foldr max 0) frames

/-- A clip as sampled: its frames, the augmentation it gets (`kinetics.py:223-244`) and the draw. -/
structure Clip (F : Type) where
  frames : List F
  augment : F → F
  draw : ℕ

/-- `_video_transform`: `kinetics.py:246-252`. -/
def transform {F : Type} (s : Subsample) (mode : Mode) (c : Clip F) : Except Err (List F) := do
  let frames ← temporal s mode c.draw c.frames
  .ok (frames.map c.augment)

/-- `default_collate` for the entry `"video"`: stacking raises unless all have one length; the loader never makes empty
batches. -/
def stack {F : Type} (videos : List (List F)) : Except Err (List (List F)) :=
  match videos with
  | [] => .error .index
  | v :: vs => if ∀ w ∈ vs, w.length = v.length then .ok (v :: vs) else .error .stack

/-- `pad_sequence`: shorter videos are followed by zeros. -/
def padded {F : Type} (zero : F) (videos : List (List F)) : List (List F) :=
  videos.map fun v => v ++ List.replicate ((videos.map List.length).foldr max 0 - v.length) zero

/-- `_custom_collate_train`: `kinetics.py:102-120`. -/
def collateTrain {F : Type} (zero : F) (pad : Bool) (videos : List (List F)) : Except Err (List (List F)) :=
  if pad then stack (padded zero videos) else stack videos

/-- `_custom_collate_val`: `kinetics.py:92-100`. -/
def collateVal {F : Type} (videos : List (List F)) : Except Err (List (List F)) := stack videos

/-- A batch of the training loader, which passes `_custom_collate_train` without `pad`: `kinetics.py:140-152`. -/
def trainBatch {F : Type} (zero : F) (s : Subsample) (clips : List (Clip F)) : Except Err (List (List F)) := do
  let videos ← clips.mapM (transform s .train)
  collateTrain zero false videos

/-- A batch of the validation loader: `kinetics.py:154-165`. -/
def valBatch {F : Type} (s : Subsample) (clips : List (Clip F)) : Except Err (List (List F)) := do
  let videos ← clips.mapM (transform s .val)
  collateVal videos

/-! ### OpenImages -/

/-- The arguments of `OpenImagesDataModule` that matter for the loaders: `open_images_datamodule.py:20-32`. -/
structure Args where
  batchSize : ℕ
  workers : ℕ := 0
  imageSize : Bool := false
  trainTransform : Bool := false
  valTransform : Bool := false
  valBatchSize : Option ℕ := none

/-- The constructor: `open_images_datamodule.py:33-54`; a flag says whether the argument was passed. -/
def construct (a : Args) : Except Err Args :=
  if a.trainTransform = false ∧ a.imageSize = false then .error .value
  else if a.valTransform = false ∧ a.imageSize = false then .error .value
  else .ok a

/-- The constructor of `DataLoader` in PyTorch 2.0: a prefetch factor needs worker processes; a batch size is positive. -/
def dataLoader (batchSize workers : ℕ) (prefetch : Option ℕ) : Except Err ℕ :=
  if workers = 0 ∧ prefetch ≠ none then .error .value
  else if batchSize = 0 then .error .value
  else .ok batchSize

/-- The batches of a loader over the images in the order of its sampler, the last one as it comes. -/
def batches {α : Type} (b : ℕ) : (l : List α) → List (List α)
  | [] => []
  | x :: l => if b = 0 then [] else (x :: l).take b :: batches b ((x :: l).drop b)
termination_by l => l.length
decreasing_by simp; omega

/-- `train_dataloader`: `open_images_datamodule.py:69-77`; `order` is the shuffled order of an epoch. -/
def trainEpoch {α : Type} (a : Args) (order : List α) : Except Err (List (List α)) := do
  let b ← dataLoader a.batchSize a.workers (some 2)
  .ok (batches b order)

/-- `val_dataloader`: `open_images_datamodule.py:79-90`. -/
def valEpoch {α : Type} (a : Args) (images : List α) : Except Err (List (List α)) := do
  let b ← dataLoader (a.valBatchSize.getD a.batchSize) a.workers none
  .ok (batches b images)

end Verif.Data.Loaders
