import Mathlib.Algebra.Order.Floor.Ring
import Mathlib.Algebra.Order.Field.Basic
import Mathlib.Data.Rat.Floor
import Mathlib.Tactic.Linarith
import Mathlib.Tactic.FieldSimp

/-!
Model of `neuralcompression/functional/_dense_image_warp.py`.

The function is a thin layer over `torch.nn.functional.grid_sample`, which is modelled from its
documentation (library code, not part of the repository): the conversion from normalised coordinates to
pixel positions with and without `align_corners`, the three padding modes and the three interpolation modes.
Numbers are elements of an arbitrary ordered field (exact arithmetic); the theorems hold for the reals, and
concrete cases are evaluated over the rationals.
-/

namespace Verif.Functional.Warp

variable {K : Type*} [Field K] [LinearOrder K] [FloorRing K]

/-- Interpolation modes. -/
inductive Mode | bilinear | nearest | bicubic
  deriving DecidableEq

/-- Padding modes. -/
inductive Padding | zeros | border | reflection
  deriving DecidableEq

/-- `torch.linspace(-1, 1, n)` at index `i`. -/
def linspace (n i : ℕ) : K := if n = 1 then -1 else -1 + 2 * i / (n - 1)

/-- `grid_sample`: normalised coordinate to pixel position. -/
def unnormalize (alignCorners : Bool) (x : K) (size : ℕ) : K :=
  if alignCorners then (x + 1) / 2 * (size - 1) else ((x + 1) * size - 1) / 2

/-- `grid_sample`: clip a position to the image. -/
def clip (x : K) (size : ℕ) : K := min ((size : K) - 1) (max x 0)

/-- `grid_sample`: reflect a position at `lo2 / 2` and `hi2 / 2`. -/
def reflect (x lo2 hi2 : K) : K :=
  if lo2 = hi2 then 0
  else
    let lo := lo2 / 2
    let span := (hi2 - lo2) / 2
    let d := |x - lo|
    let flips := ⌊d / span⌋
    let extra := d - span * flips
    if flips % 2 = 0 then extra + lo else span - extra + lo

/-- `grid_sample`: the padding mode applied to a position. -/
def padCoord (pm : Padding) (alignCorners : Bool) (x : K) (size : ℕ) : K :=
  match pm with
  | .zeros => x
  | .border => clip x size
  | .reflection =>
    clip (if alignCorners then reflect x 0 (2 * ((size : K) - 1)) else reflect x (-1) (2 * (size : K) - 1)) size

/-- A pixel, zero outside of the image (`within_bounds`). -/
def pixelAt (h w : ℕ) (pix : ℕ → ℕ → K) (i j : ℤ) : K :=
  if 0 ≤ i ∧ i < h ∧ 0 ≤ j ∧ j < w then pix i.toNat j.toNat else 0

/-- Round to nearest, ties to even (`std::nearbyint`). -/
def nearbyint (x : K) : ℤ :=
  if x - ⌊x⌋ < 1 / 2 then ⌊x⌋
  else if 1 / 2 < x - ⌊x⌋ then ⌊x⌋ + 1
  else if ⌊x⌋ % 2 = 0 then ⌊x⌋ else ⌊x⌋ + 1

/-- Bilinear interpolation at position `(y, x)`. -/
def bilinear (h w : ℕ) (pix : ℕ → ℕ → K) (y x : K) : K :=
  let i := ⌊y⌋
  let j := ⌊x⌋
  let a := y - i
  let b := x - j
  (1 - a) * (1 - b) * pixelAt h w pix i j + (1 - a) * b * pixelAt h w pix i (j + 1) +
    a * (1 - b) * pixelAt h w pix (i + 1) j + a * b * pixelAt h w pix (i + 1) (j + 1)

/-- Cubic convolution coefficients with `A = -0.75`. -/
def cubicCoeffs (t : K) : List K :=
  let A : K := -3 / 4
  let c1 := fun x : K => ((A + 2) * x - (A + 3)) * x * x + 1
  let c2 := fun x : K => ((A * x - 5 * A) * x + 8 * A) * x - 4 * A
  [c2 (t + 1), c1 t, c1 (1 - t), c2 (2 - t)]

/-- Bicubic interpolation: the padding is applied to the sixteen pixel positions. -/
def bicubic (pm : Padding) (alignCorners : Bool) (h w : ℕ) (pix : ℕ → ℕ → K) (y x : K) : K :=
  let i := ⌊y⌋
  let j := ⌊x⌋
  let at' := fun (di dj : ℤ) =>
    pixelAt h w pix ⌊padCoord pm alignCorners ((i + di : ℤ) : K) h⌋ ⌊padCoord pm alignCorners ((j + dj : ℤ) : K) w⌋
  let row := fun di : ℤ =>
    (List.zipWith (fun c dj => c * at' di dj) (cubicCoeffs (x - j)) [-1, 0, 1, 2]).sum
  (List.zipWith (fun c di => c * row di) (cubicCoeffs (y - i)) [-1, 0, 1, 2]).sum

/-- `torch.nn.functional.grid_sample` on one channel, at the normalised coordinates `(gx, gy)`. -/
def gridSample (mode : Mode) (pm : Padding) (alignCorners : Bool) (h w : ℕ) (pix : ℕ → ℕ → K) (gx gy : K) : K :=
  let x := unnormalize alignCorners gx w
  let y := unnormalize alignCorners gy h
  match mode with
  | .bilinear => bilinear h w pix (padCoord pm alignCorners y h) (padCoord pm alignCorners x w)
  | .nearest => pixelAt h w pix (nearbyint (padCoord pm alignCorners y h)) (nearbyint (padCoord pm alignCorners x w))
  | .bicubic => bicubic pm alignCorners h w pix y x

/-- A batch of images. -/
structure Images (K : Type*) where
  batch : ℕ
  channels : ℕ
  height : ℕ
  width : ℕ
  pix : ℕ → ℕ → ℕ → ℕ → K

/-- A flow field: `[batch, height, width, comps]`. -/
structure Flow (K : Type*) where
  batch : ℕ
  height : ℕ
  width : ℕ
  comps : ℕ
  val : ℕ → ℕ → ℕ → ℕ → K

/-- The exceptions that can occur. -/
inductive WarpError | value | runtime
  deriving DecidableEq

/-- `dense_image_warp`: `neuralcompression/functional/_dense_image_warp.py:38-87`, with
`_create_dense_warp_base_grid` (13-35): the base grid has the x coordinate (along the width) first.
`sameType` says whether dtype and device of the two tensors agree. `grid_sample` rejects different batch
sizes and empty images. -/
def denseImageWarp (image : Images K) (flow : Flow K) (mode : Mode := .bilinear) (pm : Padding := .border)
    (alignCorners : Bool := false) (sameType : Bool := true) : Except WarpError (Images K) :=
  if ¬ sameType then .error .value
  else if flow.comps ≠ 2 then .error .value
  else if image.batch ≠ flow.batch ∨ image.height = 0 ∨ image.width = 0 then .error .runtime
  else .ok {
    batch := image.batch
    channels := image.channels
    height := flow.height
    width := flow.width
    pix := fun b c i j =>
      gridSample mode pm alignCorners image.height image.width (image.pix b c)
        (linspace flow.width j + flow.val b i j 0) (linspace flow.height i + flow.val b i j 1) }

end Verif.Functional.Warp
