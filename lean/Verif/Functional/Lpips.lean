import Verif.Functional.MsSsim

/-!
Model of `lpips` of `/repo/neuralcompression/functional/_lpips.py`, with the parts of the `lpips` package (0.1.4) that it
calls: `LPIPS.forward`, of which `/repo/neuralcompression/loss_fn/_normfix_lpips.py` is a copy, and its normalisation.

Simplifications: floats are real numbers; images are of any type, and the layers of the networks are arbitrary functions
of the image; dropout of the linear layers is off (`model.eval()`); loading the weights succeeds.
-/

namespace Verif.Functional.Lpips

open scoped BigOperators

open Verif.Functional.MsSsim (Out reduce)

/-- The exceptions. -/
inductive Err | value | runtime
deriving DecidableEq, Repr

/-- One layer of a network: the features of an image, at `P` positions and `C` channels. -/
structure Layer (Img : Type) where
  P : ℕ
  C : ℕ
  feat : Img → Fin P → Fin C → ℝ

/-- The `lpips` package: for every network the layers, for every network and version the weights of the linear layers (by
layer and channel), the scaling of the input, and the map from the range `[0, 1]` to `[-1, 1]`. -/
structure Package (Img : Type) where
  layers : String → List (Layer Img)
  lin : String → String → ℕ → ℕ → ℝ
  scaling : Img → Img
  signed : Img → Img

/-- `normalize_tensor` of the package at one position. -/
noncomputable def normalizeTensor {C : ℕ} (x : Fin C → ℝ) : Fin C → ℝ := fun i => x i / (√(∑ j, x j ^ 2) + 1e-10)

/-- What a layer contributes: the average over the positions of the sum of the weighted squared differences
(`_normfix_lpips.py:51-78`, with the package's normalisation). -/
noncomputable def layerTerm {Img : Type} (l : Layer Img) (w : ℕ → ℝ) (x y : Img) : ℝ :=
  (∑ p, ∑ c : Fin l.C, w c * (normalizeTensor (l.feat x p) c - normalizeTensor (l.feat y p) c) ^ 2) / l.P

/-- `LPIPS.forward` for one pair of images: as `_normfix_lpips.py:35-87`. -/
noncomputable def forward {Img : Type} (pkg : Package Img) (net version : String) (calibrated normalize : Bool)
    (x y : Img) : ℝ :=
  let x := if normalize then pkg.signed x else x
  let y := if normalize then pkg.signed y else y
  let x' := if version = "0.1" then pkg.scaling x else x
  let y' := if version = "0.1" then pkg.scaling y else y
  ((pkg.layers net).zipIdx.map fun l =>
    layerTerm l.1 (if calibrated then pkg.lin net version l.2 else fun _ => 1) x' y').sum

/-- The pairs of images of two batches: torch pairs an only image with all of the other batch. -/
def pairs {Img : Type} (xs ys : List Img) : Except Err (List (Img × Img)) :=
  if xs.length = ys.length then .ok (xs.zip ys)
  else match xs, ys with
    | [x], ys => .ok (ys.map fun y => (x, y))
    | xs, [y] => .ok (xs.map fun x => (x, y))
    | _, _ => .error .runtime

/-- Where tensors live. -/
inductive Device | cpu | cuda
deriving DecidableEq

/-- `lpips`: `_lpips.py:29-94` (with `_load_lpips_model`, `_lpips.py:12-26`). The network is loaded on the CPU and stays
there; torch refuses to mix devices. -/
noncomputable def lpips {Img : Type} (pkg : Package Img) (preds target : List Img) (baseNetwork : String := "alex")
    (useLinearCalibration : Bool := true) (linearWeightsVersion : String := "0.1") (normalize : Bool := false)
    (reduction : String := "mean") (device : Device := .cpu) : Except Err Out :=
  if baseNetwork ∉ ["alex", "vgg", "squeeze"] then .error .value
  else if linearWeightsVersion ∉ ["0.0", "0.1"] then .error .value
  else if device ≠ .cpu then .error .runtime
  else match pairs preds target with
    | .error e => .error e
    | .ok ps =>
      match reduce reduction (ps.map fun p => forward pkg baseNetwork linearWeightsVersion useLinearCalibration normalize
          p.1 p.2) with
      | .error _ => .error .value
      | .ok r => .ok r

end Verif.Functional.Lpips
