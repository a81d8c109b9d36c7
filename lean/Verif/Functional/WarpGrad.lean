import Verif.Functional.Warp
import Mathlib.Algebra.BigOperators.Group.Finset.Basic

/-!
Model of the gradients that `backward()` computes for `neuralcompression/functional/_dense_image_warp.py` with bilinear interpolation.

The backward pass of `grid_sample` is library code; it is modelled from `grid_sampler_2d_backward_cpu` of torch 2.0.1.  Numbers are
elements of an ordered field, as in `Functional/Warp`.  Not modelled: the backward passes of the other interpolation modes.
-/

namespace Verif.Functional.Warp

open Finset

variable {K : Type*} [Field K] [LinearOrder K] [FloorRing K]

/-- `grid_sampler_unnormalize_set_grad` (torch, behind `_dense_image_warp.py:81-87`): the factor from normalised coordinates to pixels. -/
def unnormalizeMult (alignCorners : Bool) (size : ℕ) : K := if alignCorners then ((size : K) - 1) / 2 else size / 2

/-- `clip_coordinates_set_grad` (torch, behind `_dense_image_warp.py:81-87`): no gradient at and beyond the first and the last pixel. -/
def clipMult (x : K) (size : ℕ) : K := if x ≤ 0 then 0 else if (size : K) - 1 ≤ x then 0 else 1

/-- `reflect_coordinates_set_grad` (torch, behind `_dense_image_warp.py:81-87`): the sign changes
below the lower end and with every flip; no gradient if there is no room. -/
def reflectMult (x lo2 hi2 : K) : K :=
  if lo2 = hi2 then 0
  else
    let lo := lo2 / 2
    let span := (hi2 - lo2) / 2
    let mult : K := if x - lo < 0 then -1 else 1
    let flips := ⌊|x - lo| / span⌋
    if flips % 2 = 0 then mult else -mult

/-- `grid_sampler_compute_source_index_set_grad` (torch, behind `_dense_image_warp.py:81-87`): the factor at
the pixel position `x` before the padding. -/
def sourceMult (pm : Padding) (alignCorners : Bool) (x : K) (size : ℕ) : K :=
  unnormalizeMult alignCorners size *
    match pm with
    | .zeros => 1
    | .border => clipMult x size
    | .reflection =>
      let lo2 : K := if alignCorners then 0 else -1
      let hi2 : K := if alignCorners then 2 * ((size : K) - 1) else 2 * (size : K) - 1
      reflectMult x lo2 hi2 * clipMult (reflect x lo2 hi2) size

/-- `gix` (torch, behind `_dense_image_warp.py:81-87`): what a gradient one of the interpolated value at `(y, x)` adds to the gradient by `x`. -/
def gradX (h w : ℕ) (pix : ℕ → ℕ → K) (y x : K) : K :=
  let i := ⌊y⌋
  let j := ⌊x⌋
  pixelAt h w pix i (j + 1) * ((i + 1 : ℤ) - y) - pixelAt h w pix i j * ((i + 1 : ℤ) - y) -
    pixelAt h w pix (i + 1) j * (y - i) + pixelAt h w pix (i + 1) (j + 1) * (y - i)

/-- `giy` (torch, behind `_dense_image_warp.py:81-87`): the same by `y`. -/
def gradY (h w : ℕ) (pix : ℕ → ℕ → K) (y x : K) : K :=
  let i := ⌊y⌋
  let j := ⌊x⌋
  pixelAt h w pix (i + 1) j * ((j + 1 : ℤ) - x) - pixelAt h w pix i j * ((j + 1 : ℤ) - x) -
    pixelAt h w pix i (j + 1) * (x - j) + pixelAt h w pix (i + 1) (j + 1) * (x - j)

/-- `safe_add_2d` (torch, behind `_dense_image_warp.py:81-87`): whether the corner `(i, j)` is the pixel `(p, q)` of the image. -/
def corner (h w : ℕ) (i j : ℤ) (p q : ℕ) : K := if 0 ≤ i ∧ i < h ∧ 0 ≤ j ∧ j < w ∧ i.toNat = p ∧ j.toNat = q then 1 else 0

/-- What a gradient one of the interpolated value at `(y, x)` adds to the gradient by the pixel `(p, q)` (torch, behind
`_dense_image_warp.py:81-87`). -/
def gradPixel (h w : ℕ) (y x : K) (p q : ℕ) : K :=
  let i := ⌊y⌋
  let j := ⌊x⌋
  let b := x - j
  b * (y - i) * corner h w (i + 1) (j + 1) p q + ((j + 1 : ℤ) - x) * ((i + 1 : ℤ) - y) * corner h w i j p q +
    (x - j) * ((i + 1 : ℤ) - y) * corner h w i (j + 1) p q +
    ((j + 1 : ℤ) - x) * (y - i) * corner h w (i + 1) j p q

/-- The pixel position of an output, horizontally, before the padding: `_dense_image_warp.py:77-83`. -/
def posX (alignCorners : Bool) (image : Images K) (flow : Flow K) (b i j : ℕ) : K :=
  unnormalize alignCorners (linspace flow.width j + flow.val b i j 0) image.width

/-- The same vertically: `_dense_image_warp.py:77-83`. -/
def posY (alignCorners : Bool) (image : Images K) (flow : Flow K) (b i j : ℕ) : K :=
  unnormalize alignCorners (linspace flow.height i + flow.val b i j 1) image.height

/-- The gradient by the flow (`_dense_image_warp.py:81-87`; the base grid is added, so it is the gradient by the grid), given the
gradient `g` by the result. -/
def backwardFlow (pm : Padding) (alignCorners : Bool) (image : Images K) (flow : Flow K) (g : ℕ → ℕ → ℕ → ℕ → K) (b i j k : ℕ) : K :=
  let x := posX alignCorners image flow b i j
  let y := posY alignCorners image flow b i j
  let x' := padCoord pm alignCorners x image.width
  let y' := padCoord pm alignCorners y image.height
  if k = 0 then
    sourceMult pm alignCorners x image.width *
      ∑ c ∈ range image.channels, gradX image.height image.width (image.pix b c) y' x' * g b c i j
  else
    sourceMult pm alignCorners y image.height *
      ∑ c ∈ range image.channels, gradY image.height image.width (image.pix b c) y' x' * g b c i j

/-- The gradient by the image (`_dense_image_warp.py:81-87`). -/
def backwardImage (pm : Padding) (alignCorners : Bool) (image : Images K) (flow : Flow K) (g : ℕ → ℕ → ℕ → ℕ → K) (b c p q : ℕ) : K :=
  ∑ i ∈ range flow.height, ∑ j ∈ range flow.width,
    gradPixel image.height image.width
      (padCoord pm alignCorners (posY alignCorners image flow b i j) image.height)
      (padCoord pm alignCorners (posX alignCorners image flow b i j) image.width) p q * g b c i j

end Verif.Functional.Warp
