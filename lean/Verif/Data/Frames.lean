import Mathlib.Data.List.Chain
import Mathlib.Data.List.Sort
import Mathlib.Data.String.Basic

/-!
Model of the indexing of the data sets: `/repo/neuralcompression/data/_vimeo_90k_septuplet.py`,
`_openimages_v6.py`, the frame sampling of `_clic_2020_video.py` and the batches of
`/repo/projects/torch_vct/datamodules/uvg.py`.

Simplifications: reading a file is a function; images and tensors are of arbitrary types. Path names are lists of
characters. `torch.linspace` is computed exactly.
-/

namespace Verif.Data.Frames

/-- The exceptions. -/
inductive Err | value | index | type | runtime | assertion | zeroDivision | fileNotFound
deriving DecidableEq, Repr

/-- Indexing of a Python list: negative indices count from the end. -/
def pyGet {α : Type} (l : List α) (i : ℤ) : Except Err α :=
  let j := if i < 0 then i + l.length else i
  if j < 0 then .error .index
  else match l[j.toNat]? with
    | some a => .ok a
    | none => .error .index

/-- `str.strip`. -/
def strip (l : List Char) : List Char :=
  ((l.dropWhile Char.isWhitespace).reverse.dropWhile Char.isWhitespace).reverse

/-- `str.rstrip`. -/
def rstrip (l : List Char) : List Char := (l.reverse.dropWhile Char.isWhitespace).reverse

/-! ### Vimeo -/

/-- The arguments of `Vimeo90kSeptuplet`: `_vimeo_90k_septuplet.py:63-72`. A transform of PIL images returns a tensor or
something else (`none`). -/
structure VimeoArgs (Img T : Type) where
  asVideo : Bool := false
  framesPerGroup : ℤ := 7
  split : Option String := none
  folderList : Option (List (List Char)) := none
  pilTransform : Option (Img → Option T) := none

/-- The data set object. -/
structure Vimeo (Img T : Type) where
  asVideo : Bool
  framesPerGroup : ℕ
  folders : List (List Char)
  pilTransform : Option (Img → Option T)

variable {Img T : Type}

/-- `__init__`: `_vimeo_90k_septuplet.py:73-103`. `lines` are the lines of the list file of a split, `toTensor` is the
default transform. -/
def Vimeo.init (lines : String → List (List Char)) (toTensor : Img → T) (a : VimeoArgs Img T) :
    Except Err (Vimeo Img T) :=
  if ¬ (1 ≤ a.framesPerGroup ∧ a.framesPerGroup < 8) then .error .value
  else
    let pil := if a.pilTransform.isNone && a.asVideo then some fun i => some (toTensor i) else a.pilTransform
    if a.split.isNone = a.folderList.isNone then .error .value
    else match a.folderList with
      | some l => .ok ⟨a.asVideo, a.framesPerGroup.toNat, l, pil⟩
      | none =>
        let split := a.split.getD ""
        if ¬ (split = "train" ∨ split = "test") then .error .value
        else .ok ⟨a.asVideo, a.framesPerGroup.toNat, (lines split).map fun f => "sequences/".toList ++ strip f, pil⟩

/-- `__len__`: `_vimeo_90k_septuplet.py:105-109`. -/
def Vimeo.len (v : Vimeo Img T) : ℕ := if v.asVideo then v.folders.length else v.folders.length * v.framesPerGroup

/-- `load_image`: `_vimeo_90k_septuplet.py:111-119`. Calling `None` raises `TypeError`. -/
def Vimeo.loadImage (load : List Char → ℤ → Except Err Img) (v : Vimeo Img T) (folder : List Char) (frame : ℤ) :
    Except Err T := do
  let img ← load folder frame
  match v.pilTransform with
  | none => .error .type
  | some t => match t img with
    | none => .error .runtime
    | some x => .ok x

/-- `__getitem__`: `_vimeo_90k_septuplet.py:121-140`: one tensor for each frame of the item. The tensor transform is
left out. -/
def Vimeo.get (load : List Char → ℤ → Except Err Img) (v : Vimeo Img T) (idx : ℤ) : Except Err (List T) :=
  if v.asVideo then do
    let folder ← pyGet v.folders idx
    (List.range v.framesPerGroup).mapM fun k : ℕ => v.loadImage load folder ((k : ℤ) + 1)
  else do
    let folder ← pyGet v.folders (idx.fdiv v.framesPerGroup)
    let x ← v.loadImage load folder (idx.fmod v.framesPerGroup + 1)
    return [x]

/-! ### UVG -/

/-- The batch size and the number of batches that the constructor computes: `uvg.py:53-64`. -/
def uvgInit (numFrames : Option ℤ) : Except Err (ℤ × ℤ) :=
  let batch := numFrames.getD 300
  if batch = 0 then .error .zeroDivision
  else if (300 : ℤ).fmod batch ≠ 0 then .error .assertion
  else .ok (batch, (300 * 13 : ℤ).fdiv batch)

/-- `torchvision.datasets.ImageFolder`: the images of every class in order, with the number of the class:
`uvg.py:98-100`. -/
def imageFolder {α : Type} (classes : List (List α)) : List (α × ℕ) :=
  classes.zipIdx.flatMap fun c => c.1.map fun a => (a, c.2)

/-- The batches of a `DataLoader` without shuffling that keeps the last batch: `uvg.py:101-107`. `fuel` is an upper bound
of their number. -/
def batchesAux {α : Type} (n : ℕ) : ℕ → List α → List (List α)
  | 0, _ => []
  | fuel + 1, l => if l = [] then [] else l.take n :: batchesAux n fuel (l.drop n)

/-- The batches of a list. -/
def batches {α : Type} (n : ℕ) (l : List α) : List (List α) := batchesAux n l.length l

/-- `_custom_collate`: `uvg.py:76-82`: the frames of a batch, if all labels are the same. -/
def collate {α : Type} (batch : List (α × ℕ)) : Except Err (List α) :=
  match batch with
  | [] => .error .index
  | (_, k) :: _ => if batch.all fun p => p.2 == k then .ok (batch.map (·.1)) else .error .assertion

/-- What iterating over the loader gives. -/
def uvgLoad {α : Type} (numFrames : Option ℤ) (classes : List (List α)) : Except Err (List (Except Err (List α))) := do
  let (batch, _) ← uvgInit numFrames
  if batch ≤ 0 then .error .value
  return (batches batch.toNat (imageFolder classes)).map collate

/-! ### OpenImages -/

/-- The position of the root of a path in `os.path.splitext`: the part before the last point of the last component,
unless there are only points before it. -/
def splitextRoot (l : List Char) : List Char :=
  let base := (l.reverse.takeWhile (· != '/')).reverse
  if '.' ∈ base then
    let suffix := base.reverse.takeWhile (· != '.')
    let root := base.take (base.length - (suffix.length + 1))
    if root.all (· == '.') then l else l.take (l.length - (suffix.length + 1))
  else l

/-- `sorted` of strings. -/
def pySorted (l : List (List Char)) : List (List Char) :=
  l.mergeSort fun a b => decide (String.ofList a ≤ String.ofList b)

/-- `_load_indices`: `_openimages_v6.py:120-128`. -/
def loadIndices (invalid : List (List Char)) (lines : List (List Char)) (split : String) : List (List Char) :=
  let names := (pySorted lines).map fun l => splitextRoot (rstrip l)
  if split = "train" then names.filter fun n => n ∉ invalid else names

/-- The constructor and `_get_image_path` for all indices: `_openimages_v6.py:156-182`. `lines` gives the lines of
a file below the root. -/
def openImages (invalid : List (List Char)) (lines : List Char → List (List Char)) (split : String) :
    Except Err (List (List Char)) :=
  if ¬ (split = "train" ∨ split = "val" ∨ split = "test") then .error .value
  else
    let folder := if split = "val" then "validation" else split
    let indices := loadIndices invalid (lines ("list-".toList ++ folder.toList ++ "-files.txt".toList)) split
    .ok (indices.map fun n => folder.toList ++ "/".toList ++ n ++ ".jpg".toList)

/-! ### CLIC -/

/-- `_sample_frames`: `_clic_2020_video.py:199-206`. `linspace(0, n - 1, k)` has the entries `i (n - 1) / (k - 1)`, the only
entry is 0 if `k = 1`; `long()` rounds down. For no frames the clamp gives the index -1. -/
def sampleFrames {α : Type} (frames : List α) (k : ℕ) : Except Err (List α) :=
  (List.range k).mapM fun i =>
    pyGet frames (if frames.length = 0 then -1 else ((i * (frames.length - 1) / (k - 1) : ℕ) : ℤ))

end Verif.Data.Frames
