import Verif.Functional.Scalar
import Mathlib.Analysis.SpecialFunctions.Complex.Arg

/-!
Model of `neuralcompression/functional/_hsv_to_rgb.py` and `_optical_flow_to_color.py`.

A batch of images is the list of its pixels (the code treats all pixels of the batch alike and takes
minima and maxima over all of them). Real numbers stand for floating point numbers.
-/

namespace Verif.Functional

open Real

/-- `torch.fmod` for a positive divisor: the remainder of the division truncated towards zero. -/
noncomputable def fmod (a b : ℝ) : ℝ :=
  a - b * (if 0 ≤ a then (⌊a / b⌋ : ℝ) else (⌈a / b⌉ : ℝ))

/-- A pixel with hue, saturation and value. -/
structure Hsv where
  h : ℝ
  s : ℝ
  v : ℝ

/-- A pixel with red, green and blue. -/
structure Rgb where
  r : ℝ
  g : ℝ
  b : ℝ

/-- `convert_fn`: `neuralcompression/functional/_hsv_to_rgb.py:31-35`. -/
noncomputable def convertFn (p : Hsv) (n : ℝ) : ℝ :=
  let k := fmod (n + p.h / 60) 6
  p.v - p.v * p.s * max 0 (min (min k (4 - k)) 1)

/-- One pixel of the result: `_hsv_to_rgb.py:37`. -/
noncomputable def hsvPixel (p : Hsv) : Rgb := ⟨convertFn p 5, convertFn p 3, convertFn p 1⟩

/-- `hsv_to_rgb`: `_hsv_to_rgb.py:10-37`; the tensor has four dimensions and three channels, the minimum of
an empty tensor fails. -/
noncomputable def hsvToRgb (img : List Hsv) : Except Err (List Rgb) :=
  if img.isEmpty then .error .runtime
  else if (∃ p ∈ img, p.h < 0) ∨ (∃ p ∈ img, p.h > 360) then .error .value
  else if (∃ p ∈ img, p.s < 0 ∨ p.v < 0) ∨ (∃ p ∈ img, p.s > 1 ∨ p.v > 1) then .error .value
  else .ok (img.map hsvPixel)

/-- `angles_in_0_to_360_range`: `_optical_flow_to_color.py:34-37`; `torch.atan2 y x` is the argument of the
complex number `x + iy`. -/
noncomputable def angle360 (y x : ℝ) : ℝ :=
  let a := Complex.arg ⟨x, y⟩
  (180 / π) * (if a < 0 then 2 * π + a else a)

/-- The smallest element of a non-empty list (`Tensor.min`). -/
noncomputable def minOf : List ℝ → ℝ
  | [] => 0
  | a :: l => l.foldl min a

/-- The largest element of a non-empty list (`Tensor.max`). -/
noncomputable def maxOf : List ℝ → ℝ
  | [] => 0
  | a :: l => l.foldl max a

/-- The HSV image that `optical_flow_to_color` builds: `_optical_flow_to_color.py:28-44`. A pixel of the flow
is the pair of its two channels. -/
noncomputable def flowHsv (flow : List (ℝ × ℝ)) (eps : ℝ) : List Hsv :=
  let mag := flow.map fun f => √(f.1 ^ 2 + f.2 ^ 2)
  let lo := minOf mag
  let mag := mag.map (· - lo)
  let hi := maxOf mag
  let mag := mag.map (· / (hi + eps))
  List.zipWith (fun f m => ⟨angle360 f.1 f.2, 1, m⟩) flow mag

/-- `optical_flow_to_color`: `_optical_flow_to_color.py:14-46`. -/
noncomputable def opticalFlowToColor (flow : List (ℝ × ℝ)) (eps : ℝ := 1e-5) : Except Err (List Rgb) :=
  if flow.isEmpty then .error .runtime else hsvToRgb (flowHsv flow eps)

end Verif.Functional
