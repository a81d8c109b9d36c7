import Mathlib.Analysis.SpecialFunctions.Pow.Real
import Mathlib.Algebra.BigOperators.Group.Finset.Basic
import Mathlib.Algebra.Order.BigOperators.Ring.Finset

/-!
Model of `neuralcompression/functional/_multiscale_structural_similarity.py`.

Real numbers stand for floating point numbers. A batch of images is its four sizes and a function from
indices to values. The two images have the same shape (broadcasting is not modelled). Division by zero, which
Lean defines as zero, does not occur under the hypotheses of the theorems.
-/

namespace Verif.Functional.MsSsim

open Real Finset

/-- A batch of images: `[batch, channels, height, width]`. -/
structure Batch where
  batch : ℕ
  channels : ℕ
  height : ℕ
  width : ℕ
  pix : ℕ → ℕ → ℕ → ℕ → ℝ

/-- The exceptions that can occur. -/
inductive Err | value | runtime
  deriving DecidableEq

/-- `gaussian_probabilities` at position `u` of the window: _multiscale_structural_similarity.py:26-32. -/
noncomputable def gauss (ws : ℕ) (std : ℝ) (u : ℕ) : ℝ :=
  exp (-0.5 * (((u : ℝ) - (ws / 2 : ℕ)) / std) ^ 2)

/-- `normalized`: _multiscale_structural_similarity.py:34. -/
noncomputable def normalized (ws : ℕ) (std : ℝ) (u : ℕ) : ℝ :=
  gauss ws std u / ∑ v ∈ range ws, gauss ws std v

/-- `_gaussian_window`: _multiscale_structural_similarity.py:15-36 (the check of the size is in `ssimMultichannel`). -/
noncomputable def window (ws : ℕ) (std : ℝ) (u v : ℕ) : ℝ := normalized ws std u * normalized ws std v

/-- `F.conv2d(x, window)` of a single channel image, at output position `(i, j)`. -/
noncomputable def conv (ws : ℕ) (std : ℝ) (x : ℕ → ℕ → ℝ) (i j : ℕ) : ℝ :=
  ∑ u ∈ range ws, ∑ v ∈ range ws, window ws std u v * x (i + u) (j + v)

/-- The parameters of the index. -/
structure Params where
  dataRange : ℝ := 1
  windowSize : ℕ := 11
  k1 : ℝ := 0.01
  k2 : ℝ := 0.03
  gaussianStd : ℝ := 1.5

/-- `luminance` at a position: _multiscale_structural_similarity.py:85-107. -/
noncomputable def luminance (p : Params) (x y : ℕ → ℕ → ℝ) (i j : ℕ) : ℝ :=
  let c1 := (p.k1 * p.dataRange) ^ 2
  let ux := conv p.windowSize p.gaussianStd x i j
  let uy := conv p.windowSize p.gaussianStd y i j
  (2 * ux * uy + c1) / (ux ^ 2 + uy ^ 2 + c1)

/-- `contrast_structure` at a position: _multiscale_structural_similarity.py:86-108. -/
noncomputable def contrast (p : Params) (x y : ℕ → ℕ → ℝ) (i j : ℕ) : ℝ :=
  let c2 := (p.k2 * p.dataRange) ^ 2
  let ux := conv p.windowSize p.gaussianStd x i j
  let uy := conv p.windowSize p.gaussianStd y i j
  let uxx := conv p.windowSize p.gaussianStd (fun a b => x a b * x a b) i j
  let uyy := conv p.windowSize p.gaussianStd (fun a b => y a b * y a b) i j
  let uxy := conv p.windowSize p.gaussianStd (fun a b => x a b * y a b) i j
  let vx := uxx - ux * ux
  let vy := uyy - uy * uy
  let vxy := uxy - ux * uy
  (2 * vxy + c2) / (vx + vy + c2)

/-- Mean over the positions of the output of a convolution without padding. -/
noncomputable def meanPos (ws h w : ℕ) (f : ℕ → ℕ → ℝ) : ℝ :=
  (∑ i ∈ range (h - ws + 1), ∑ j ∈ range (w - ws + 1), f i j) / ((h - ws + 1 : ℕ) * (w - ws + 1 : ℕ))

/-- `_ssim_single_channel` for one batch element: the pair (SSIM, contrast-structure), _multiscale_structural_similarity.py:50-114. -/
noncomputable def ssimSingle (p : Params) (h w : ℕ) (x y : ℕ → ℕ → ℝ) : ℝ × ℝ :=
  (meanPos p.windowSize h w fun i j => luminance p x y i j * contrast p x y i j,
    meanPos p.windowSize h w fun i j => contrast p x y i j)

/-- `_ssim_multichannel`: _multiscale_structural_similarity.py:117-164, as a function of channel and batch element. Stacking no channels
fails; so does a window size that is not positive and odd (_multiscale_structural_similarity.py:23-24). -/
noncomputable def ssimMultichannel (p : Params) (x y : Batch) : Except Err (ℕ → ℕ → ℝ × ℝ) :=
  if x.channels = 0 then .error .runtime
  else if p.windowSize = 0 ∨ p.windowSize % 2 = 0 then .error .value
  else .ok fun c b => ssimSingle p x.height x.width (x.pix b c) (y.pix b c)

/-- `_pad_and_downsample`: _multiscale_structural_similarity.py:167-189. -/
noncomputable def padAndDownsample (x : Batch) : Batch where
  batch := x.batch
  channels := x.channels
  height := (x.height + x.height % 2) / 2
  width := (x.width + x.width % 2) / 2
  pix := fun b c i j =>
    let padded := fun a d => x.pix b c (min a (x.height - 1)) (min d (x.width - 1))
    (padded (2 * i) (2 * j) + padded (2 * i) (2 * j + 1) + padded (2 * i + 1) (2 * j) +
      padded (2 * i + 1) (2 * j + 1)) / 4

/-- The loop over the scales, _multiscale_structural_similarity.py:236-264: each entry is, per channel and batch element, the pair after
`relu` and `pow`. -/
noncomputable def scaleOutputs (p : Params) : List ℝ → ℕ → Batch → Batch → Except Err (List (ℕ → ℕ → ℝ × ℝ))
  | [], _, _, _ => .ok []
  | factor :: factors, scale, preds, target =>
    let preds := if scale ≠ 0 then padAndDownsample preds else preds
    let target := if scale ≠ 0 then padAndDownsample target else target
    if preds.height < p.windowSize ∨ preds.width < p.windowSize then .error .runtime
    else (ssimMultichannel p preds target).bind fun s =>
      (scaleOutputs p factors (scale + 1) preds target).map fun rest =>
        (fun c b => (max 0 (s c b).1 ^ factor, max 0 (s c b).2 ^ factor)) :: rest

/-- What is returned: one number, or one per batch element. -/
inductive Out
  | scalar (x : ℝ)
  | perImage (xs : List ℝ)

/-- `_get_reduction_op` applied to a list of scores: _multiscale_structural_similarity.py:39-47. -/
noncomputable def reduce (reduction : String) (xs : List ℝ) : Except Err Out :=
  if reduction = "mean" then .ok (.scalar (xs.sum / xs.length))
  else if reduction = "sum" then .ok (.scalar xs.sum)
  else if reduction = "none" then .ok (.perImage xs)
  else .error .value

/-- The score of one channel and batch element from the list of scales: _multiscale_structural_similarity.py:270-272. -/
noncomputable def combine (outs : List (ℕ → ℕ → ℝ × ℝ)) (last : ℕ → ℕ → ℝ × ℝ) (c b : ℕ) : ℝ :=
  (last c b).1 * (outs.dropLast.map fun o => (o c b).2).prod

/-- `multiscale_structural_similarity`: _multiscale_structural_similarity.py:192-276. Stacking an empty list of scales fails. -/
noncomputable def msSsim (p : Params) (factors : List ℝ) (reduction : String) (preds target : Batch) :
    Except Err Out :=
  (scaleOutputs p factors 0 preds target).bind fun outs =>
    match outs.getLast? with
    | none => .error .runtime
    | some last =>
      reduce reduction ((List.range preds.batch).map fun b =>
        (∑ c ∈ range preds.channels, combine outs last c b) / preds.channels)

/-- `MS_SSIM_FACTORS`: _multiscale_structural_similarity.py:12. -/
noncomputable def defaultFactors : List ℝ := [0.0448, 0.2856, 0.3001, 0.2363, 0.1333]

end Verif.Functional.MsSsim
