import Mathlib.Tactic.Linarith

/-!
Model of the clips that the video data modules deliver: `/repo/projects/torch_vct/datamodules/vimeo.py`, `uvg.py`,
`video_data_api.py` and `/repo/projects/deep_video_compression/data_module.py`.

The frames of a data set item are modelled in `Verif.Data.Frames`; here an item is the stack of its frames. The cropping
transforms of torchvision (`CenterCrop`, `RandomCrop`, `RandomResizedCrop`, `RandomHorizontalFlip`) and the `Normalize` of
pytorchvideo are modelled after their documentation and source; interpolation is an arbitrary function of a window.
Simplifications: quotients and roundings of sizes are exact; the values of an array outside its size are never read.
-/

namespace Verif.Data.Clips

/-- `ValueError`, `RuntimeError` and `TypeError`. -/
inductive Err | value | runtime | type
deriving DecidableEq, Repr

/-- A tensor of frames, channels, rows and columns. -/
structure Clip (α : Type) where
  t : ℕ
  c : ℕ
  h : ℕ
  w : ℕ
  px : ℕ → ℕ → ℕ → ℕ → α

variable {α : Type}

/-- The setting `video_crop_size` or `image_size`: `vimeo.py:44`, `data_module.py:40`. -/
inductive Size | int (n : ℕ) | seq (l : List ℕ)

/-- `_setup_size` of torchvision: one number is used twice, other lengths than one and two raise `ValueError`. -/
def setupSize : Size → Except Err (ℕ × ℕ)
  | .int n => .ok (n, n)
  | .seq [n] => .ok (n, n)
  | .seq [h, w] => .ok (h, w)
  | .seq _ => .error .value

/-- `F.crop` of torchvision, for offsets that are not negative: what is outside the image is zero. -/
def crop (zero : α) (top left h w : ℕ) (v : Clip α) : Clip α :=
  { v with h := h, w := w
           px := fun k c y x => if y + top < v.h ∧ x + left < v.w then v.px k c (y + top) (x + left) else zero }

/-- `F.pad` with zeros, by numbers of columns and rows on the left, top, right and bottom. -/
def padZero (zero : α) (l t r b : ℕ) (v : Clip α) : Clip α :=
  { v with h := t + v.h + b, w := l + v.w + r
           px := fun k c y x =>
             if t ≤ y ∧ y < t + v.h ∧ l ≤ x ∧ x < l + v.w then v.px k c (y - t) (x - l) else zero }

/-- `F.pad` with the mode `"edge"`, by the same number of columns on both sides and of rows above and below. -/
def padEdge (l t : ℕ) (v : Clip α) : Clip α :=
  { v with h := v.h + 2 * t, w := v.w + 2 * l
           px := fun k c y x => v.px k c (min (y - t) (v.h - 1)) (min (x - l) (v.w - 1)) }

/-- `int(round(n / 2.0))` in Python: ties go to the even number. -/
def roundHalf (n : ℕ) : ℕ := if n % 2 = 0 then n / 2 else if (n / 2) % 2 = 0 then n / 2 else n / 2 + 1

/-- `CenterCrop(size)` of torchvision. -/
def centerCrop (zero : α) (size : ℕ × ℕ) (v : Clip α) : Clip α :=
  let (th, tw) := size
  if v.w < tw ∨ v.h < th then
    let p := padZero zero (if v.w < tw then (tw - v.w) / 2 else 0) (if v.h < th then (th - v.h) / 2 else 0)
      (if v.w < tw then (tw - v.w + 1) / 2 else 0) (if v.h < th then (th - v.h + 1) / 2 else 0) v
    if p.w = tw ∧ p.h = th then p
    else crop zero (roundHalf (p.h - th)) (roundHalf (p.w - tw)) th tw p
  else crop zero (roundHalf (v.h - th)) (roundHalf (v.w - tw)) th tw v

/-- `RandomCrop(size, pad_if_needed=True, padding_mode="edge")` of torchvision; `i` and `j` are the drawn offsets, reduced
to the range of the draw. -/
def randomCrop (zero : α) (size : ℕ × ℕ) (i j : ℕ) (v : Clip α) : Clip α :=
  let (th, tw) := size
  let v := if v.w < tw then padEdge (tw - v.w) 0 v else v
  let v := if v.h < th then padEdge 0 (th - v.h) v else v
  if v.w = tw ∧ v.h = th then crop zero 0 0 th tw v
  else crop zero (i % (v.h - th + 1)) (j % (v.w - tw + 1)) th tw v

/-- `RandomResizedCrop.get_params` of torchvision, with the ratios 3/4 and 4/3: the window `(i, j, h, w)` of the first
attempt that fits, and otherwise the centre. An attempt is the drawn height and width, and the drawn offsets reduced to
their range. -/
def resizedWindow (H W : ℕ) : List (ℕ × ℕ × ℕ × ℕ) → ℕ × ℕ × ℕ × ℕ
  | (h, w, i, j) :: rest =>
    if 0 < w ∧ w ≤ W ∧ 0 < h ∧ h ≤ H then (i % (H - h + 1), j % (W - w + 1), h, w) else resizedWindow H W rest
  | [] =>
    let (h, w) := if 4 * W < 3 * H then ((8 * W + 3) / 6, W)
      else if 4 * H < 3 * W then (H, (8 * H + 3) / 6) else (H, W)
    ((H - h) / 2, (W - w) / 2, h, w)

/-- `RandomResizedCrop(size)`: the window, interpolated to the size. `interp` gives the values at a row and column of
the result from a window of the given height and width. -/
def resizedCrop (zero : α) (interp : ℕ → ℕ → (ℕ → ℕ → α) → ℕ → ℕ → α) (size : ℕ × ℕ) (attempts : List (ℕ × ℕ × ℕ × ℕ))
    (v : Clip α) : Clip α :=
  let (i, j, h, w) := resizedWindow v.h v.w attempts
  let u := crop zero i j h w v
  { u with h := size.1, w := size.2, px := fun k c => interp u.h u.w (u.px k c) }

/-- `F.hflip`. -/
def hflip (v : Clip α) : Clip α := { v with px := fun k c y x => v.px k c y (v.w - 1 - x) }

/-- The draws for one item: which of the two crops, their offsets or attempts, and whether to flip. -/
structure Draw where
  plain : Bool
  i : ℕ
  j : ℕ
  attempts : List (ℕ × ℕ × ℕ × ℕ)
  flip : Bool

/-- The mode of `_video_transform`: `vimeo.py:57-59`. -/
inductive Mode | train | test
deriving DecidableEq

/-- `_video_transform`: `vimeo.py:57-76`, applied to the stacked frames of an item, `_vimeo_90k_septuplet.py:137-138`. -/
def videoTransform (zero : α) (interp : ℕ → ℕ → (ℕ → ℕ → α) → ℕ → ℕ → α) (size : ℕ × ℕ) (mode : Mode) (d : Draw)
    (v : Clip α) : Clip α :=
  match mode with
  | .train =>
    let v := if d.plain then randomCrop zero size d.i d.j v else resizedCrop zero interp size d.attempts v
    if d.flip then hflip v else v
  | .test => centerCrop zero size v

/-- `default_collate`: stacking raises `RuntimeError` unless all have the same size. The loader makes no empty batches. -/
def collate (items : List (Clip α)) : Except Err (List (Clip α)) :=
  match items with
  | [] => .error .runtime
  | v :: vs => if ∀ u ∈ vs, u.t = v.t ∧ u.c = v.c ∧ u.h = v.h ∧ u.w = v.w then .ok (v :: vs) else .error .runtime

/-- A batch of the loaders: `vimeo.py:78-80`, `vimeo.py:82-115`; `drawn` are the items with the draws for them. -/
def vimeoBatch (zero : α) (interp : ℕ → ℕ → (ℕ → ℕ → α) → ℕ → ℕ → α) (cropSize : Size) (mode : Mode)
    (drawn : List (Draw × Clip α)) : Except Err (List (Clip α)) := do
  let size ← setupSize cropSize
  collate (drawn.map fun p => videoTransform zero interp size mode p.1 p.2)

/-- `CenterCrop(image_size)` and `ToTensor()` of `Vimeo90kSeptupletLightning`: `data_module.py:58-65`; every frame is
transformed by itself and then stacked, so that frames of one size stay together. `ToTensor` divides by 255. -/
def dvcItem (imageSize : Size) (v : Clip ℕ) : Except Err (Clip ℚ) := do
  let size ← setupSize imageSize
  let u := centerCrop 0 size v
  .ok ⟨u.t, u.c, u.h, u.w, fun k c y x => (u.px k c y x : ℚ) / 255⟩

/-- The constructor of `Vimeo90kSeptupletLightning`: `data_module.py:45-49`. -/
def dvcInit (framesPerGroup : ℤ) : Except Err ℤ :=
  if framesPerGroup ∈ [1, 2, 3, 4, 5, 6, 7] then .ok framesPerGroup else .error .value

/-- A batch of the loaders: `data_module.py:83-99`. -/
def dvcBatch (imageSize : Size) (items : List (Clip ℕ)) : Except Err (List (Clip ℚ)) := do
  let done ← items.mapM (dvcItem imageSize)
  collate done

/-! ### UVG -/

/-- `Tensor.permute(dims)` on shapes: `RuntimeError` unless the number of dimensions agrees. -/
def permute (dims shape : List ℕ) : Except Err (List ℕ) :=
  if dims.length = shape.length then .ok (dims.map fun d => shape.getD d 0) else .error .runtime

/-- `torchvision.transforms.Normalize` on shapes: it needs at least three dimensions and three channels. -/
def tvNormalize (shape : List ℕ) : Except Err (List ℕ) :=
  if shape.length < 3 then .error .value
  else if shape.getD (shape.length - 3) 0 = 3 ∨ shape.getD (shape.length - 3) 0 = 1 then
    .ok (shape.set (shape.length - 3) 3) else .error .runtime

/-- `pytorchvideo.transforms.Normalize` on shapes: a clip `[C, T, H, W]` is permuted, normalised and permuted back. -/
def ptvNormalize (shape : List ℕ) : Except Err (List ℕ) := do
  let s ← permute [1, 0, 2, 3] shape
  let s ← tvNormalize s
  permute [1, 0, 2, 3] s

/-- `_transforms` on the shape of an image: `uvg.py:84-92`; `ToTensor` gives `[3, H, W]`. -/
def uvgTransform (normalize : Bool) (h w : ℕ) : Except Err (List ℕ) :=
  let shape := [3, h, w]
  if normalize then ptvNormalize shape else .ok shape

/-- `_custom_collate` on the shapes of the images of a batch with one label: `uvg.py:76-82`. -/
def uvgBatch (normalize : Bool) (images : List (ℕ × ℕ)) : Except Err (List ℕ) := do
  let shapes ← images.mapM fun p => uvgTransform normalize p.1 p.2
  match shapes with
  | [] => .error .runtime
  | s :: ss => if ∀ r ∈ ss, r = s then .ok (1 :: (ss.length + 1) :: s) else .error .runtime

/-! ### The containers -/

/-- `validate_shape` of `VideoDataset`: `video_data_api.py:42-47`. -/
def validateVideo (shape : List ℕ) : Except Err Unit :=
  if shape.length ≠ 5 ∨ shape.getD 2 0 ≠ 3 then .error .value else .ok ()

/-- `num_frames`, `batch_size`, `spatial_shape`: `video_data_api.py:27-40`, for shapes of five dimensions. -/
def videoQueries (shape : List ℕ) : ℕ × ℕ × ℕ × ℕ :=
  (shape.getD 1 0, shape.getD 0 0, shape.getD (shape.length - 2) 0, shape.getD (shape.length - 1) 0)

/-- The fields a `NamedTuple` subclass accepts: those of `VideoDataset`, `video_data_api.py:12-13`. The further annotations
of `KineticsDataset` and `VimeoDataset`, `video_data_api.py:50-59`, are class attributes, not fields. -/
def videoFields : List String := ["video_tensor"]

/-- The documented fields of `KineticsDataset`: `video_data_api.py:50-55`. -/
def kineticsAnnotated : List String := ["video_tensor", "video_name", "label", "video_index", "clip_index", "aug_index"]

/-- Constructing any of the containers with keyword arguments: unknown and missing names raise `TypeError`. -/
def makeVideo (names : List String) : Except Err Unit :=
  if (∀ n ∈ names, n ∈ videoFields) ∧ ∀ n ∈ videoFields, n ∈ names then .ok () else .error .type

/-- A tensor `[B, T, …]` as its type and its entries by batch and time. -/
structure Scenes (α : Type) where
  float32 : Bool
  dim : ℕ
  b : ℕ
  t : ℕ
  data : ℕ → ℕ → α

/-- `get_scenes_iter`: `video_data_api.py:91-104`. -/
def scenesIter (s : Scenes α) : Except Err (List (List α)) :=
  if s.float32 = false then .error .value
  else if s.dim ≠ 5 then .error .value
  else .ok ((List.range s.t).map fun i => (List.range s.b).map fun b => s.data b i)

end Verif.Data.Clips
