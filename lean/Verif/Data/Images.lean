import Verif.Data.Clips

/-!
Model of the images that the data module of the image project delivers: `/repo/projects/illm/default_transforms.py` and
`/repo/projects/illm/open_images_datamodule.py`. An image is a clip with one frame.

The transforms of torchvision are modelled as in `Verif.Data.Clips`; `Resize` and interpolation are arbitrary functions of
the values. Padding by reflection continues a line by its mirror image, as often as needed. Quotients are exact.
-/

namespace Verif.Data.Images

open Verif.Data.Clips

variable {α : Type}

/-- The position that `numpy.pad` with the mode `"reflect"` shows at position `i` of a line of length `n`. -/
def reflect (n : ℕ) (i : ℤ) : ℕ :=
  let r := i % (2 * ((n : ℤ) - 1))
  if n = 1 then 0 else if r < n then r.toNat else (2 * ((n : ℤ) - 1) - r).toNat

/-- `F.pad` with the mode `"reflect"`, by the same number of columns on both sides and of rows above and below. -/
def padReflect (l t : ℕ) (v : Clip α) : Clip α :=
  { v with h := v.h + 2 * t, w := v.w + 2 * l
           px := fun k c y x => v.px k c (if t = 0 then y else reflect v.h ((y : ℤ) - t))
             (if l = 0 then x else reflect v.w ((x : ℤ) - l)) }

/-- `RandomCrop(size, pad_if_needed=True, padding_mode="reflect")` of torchvision. -/
def randomCrop (zero : α) (size : ℕ × ℕ) (i j : ℕ) (v : Clip α) : Clip α :=
  let (th, tw) := size
  let v := if v.w < tw then padReflect (tw - v.w) 0 v else v
  let v := if v.h < th then padReflect 0 (th - v.h) v else v
  if v.w = tw ∧ v.h = th then crop zero 0 0 th tw v
  else crop zero (i % (v.h - th + 1)) (j % (v.w - tw + 1)) th tw v

/-- `default_train_transform` before `ToTensor`: `default_transforms.py:18-31`. -/
def trainTransform (zero : α) (interp : ℕ → ℕ → (ℕ → ℕ → α) → ℕ → ℕ → α) (size : ℕ × ℕ) (d : Draw) (v : Clip α) : Clip α :=
  let v := if d.plain then randomCrop zero size d.i d.j v else resizedCrop zero interp size d.attempts v
  if d.flip then hflip v else v

/-- The size that `Resize(size)` of torchvision gives an image of height `h` and width `w`: a number is the new length of the
shorter side, a list of two is the new size. -/
def resizedSize (s : Size) (h w : ℕ) : Except Err (ℕ × ℕ) :=
  match s with
  | .int n => .ok (if w ≤ h then (n * h / w, n) else (n, n * w / h))
  | .seq [n] => .ok (if w ≤ h then (n * h / w, n) else (n, n * w / h))
  | .seq [a, b] => .ok (a, b)
  | .seq _ => .error .value

/-- `Resize(size)`: `scale` gives the values at a row and column of the result of a given height and width. -/
def resize (scale : ℕ → ℕ → ℕ → ℕ → (ℕ → ℕ → α) → ℕ → ℕ → α) (s : Size) (v : Clip α) : Except Err (Clip α) := do
  let (h, w) ← resizedSize s v.h v.w
  .ok { v with h := h, w := w, px := fun k c => scale v.h v.w h w (v.px k c) }

/-- `default_val_transform` before `ToTensor`: `default_transforms.py:34-41`. -/
def valTransform (zero : α) (scale : ℕ → ℕ → ℕ → ℕ → (ℕ → ℕ → α) → ℕ → ℕ → α) (s : Size) (v : Clip α) :
    Except Err (Clip α) := do
  let v ← resize scale s v
  let size ← setupSize s
  .ok (centerCrop zero size v)

/-- A training batch of images with the default transforms: `open_images_datamodule.py:69-77`. -/
def trainBatch (zero : α) (interp : ℕ → ℕ → (ℕ → ℕ → α) → ℕ → ℕ → α) (s : Size) (drawn : List (Draw × Clip α)) :
    Except Err (List (Clip α)) := do
  let size ← setupSize s
  collate (drawn.map fun p => trainTransform zero interp size p.1 p.2)

/-- A validation batch of images with the default transforms: `open_images_datamodule.py:79-90`. -/
def valBatch (zero : α) (scale : ℕ → ℕ → ℕ → ℕ → (ℕ → ℕ → α) → ℕ → ℕ → α) (s : Size) (images : List (Clip α)) :
    Except Err (List (Clip α)) := do
  let done ← images.mapM (valTransform zero scale s)
  collate done

end Verif.Data.Images
