import Verif.Round
import Mathlib.Analysis.SpecialFunctions.Log.Basic
import Mathlib.Algebra.BigOperators.Group.List.Basic

/-!
Model of elementwise helpers:
`neuralcompression/functional/_log_expm1.py`, `_lower_bound.py`, `_information_content.py`,
`_image_to_255_scale.py` and `_quantization_offset.py`.

Real numbers stand for floating point numbers; tensors are modelled elementwise or as lists of their
elements.
-/

namespace Verif.Functional

open Real

/-! ### log_expm1 -/

/-- A floating point result: a number, minus infinity, or not-a-number. -/
inductive FVal
  | val (x : ℝ)
  | negInf
  | nan

/-- `torch.log` on real inputs. -/
noncomputable def tlog (x : ℝ) : FVal :=
  if 0 < x then .val (log x) else if x = 0 then .negInf else .nan

/-- `log_expm1`: `neuralcompression/functional/_log_expm1.py:10-33`. -/
noncomputable def logExpm1 (x : ℝ) : FVal :=
  if x < 15 then tlog (exp (min x 15) - 1) else .val x

/-! ### lower_bound -/

/-- The exceptions of the functions in this file. -/
inductive Err
  | value | attribute | runtime | zeroDivision
  deriving DecidableEq

/-- `_LowerBoundGradient`: `neuralcompression/functional/_lower_bound.py:16-20`. -/
def gradientCode (name : String) : Option ℕ :=
  if name = "disconnected" then some 0
  else if name = "identity" then some 1
  else if name = "identity_if_towards" then some 2
  else none

/-- The argument `bound`: a Python float or a tensor. -/
inductive Bound
  | float (b : ℝ)
  | tensor (b : ℝ)

/-- The tensors saved for the backward pass: `_lower_bound.py:44-48`. -/
structure LbCtx where
  x : ℝ
  bound : ℝ
  gradient : ℕ

/-- `_LowerBound.forward`: `_lower_bound.py:38-50`; `bound.to` fails on a float. -/
noncomputable def lbForward (x : ℝ) (bound : Bound) (gradient : ℕ) : Except Err (ℝ × LbCtx) :=
  match bound with
  | .float _ => .error .attribute
  | .tensor b => .ok (max x b, ⟨x, b, gradient⟩)

/-- `_LowerBound.backward`, the gradient with respect to `x` (the others are `None`):
`_lower_bound.py:24-36`. -/
noncomputable def lbBackward (ctx : LbCtx) (y : ℝ) : ℝ :=
  if ctx.gradient = 0 then ctx.x
  else if ctx.gradient = 1 then y
  else (if ctx.x ≥ ctx.bound ∨ y < 0 then 1 else 0) * y

/-- `lower_bound`: `_lower_bound.py:53-100`, returning the value and the backward function that autograd
will call. -/
noncomputable def lowerBound (x : ℝ) (bound : Bound) (gradient : String := "identity_if_towards") :
    Except Err (ℝ × (ℝ → ℝ)) :=
  match gradientCode gradient with
  | none => .error .value
  | some g => (lbForward x bound g).map fun r => (r.1, lbBackward r.2)

/-! ### information_content -/

/-- What `information_content` returns for the three reductions. -/
inductive InfoOut
  | scalar (x : ℝ)
  | perElement (xs : List ℝ)
  | all (xs : List (List ℝ))

/-- Apply a function to every number of the output. -/
def InfoOut.map (f : ℝ → ℝ) : InfoOut → InfoOut
  | .scalar x => .scalar (f x)
  | .perElement xs => .perElement (xs.map f)
  | .all xs => .all (xs.map (List.map f))

/-- `information_content`: `neuralcompression/functional/_information_content.py:12-50`. The tensor is the
list of its batch elements, each flattened. `view(0, -1)` fails; `math.log` fails on non-positive bases. -/
noncomputable def informationContent (p : List (List ℝ)) (reduction : String := "sum") (base : ℝ := 2) :
    Except Err InfoOut :=
  let natural : Except Err InfoOut :=
    if reduction = "sum" then .ok (.scalar ((p.flatten.map log).sum))
    else if reduction = "batch_el" then
      if p.isEmpty then .error .runtime else .ok (.perElement (p.map fun e => (e.map log).sum))
    else if reduction = "none" then .ok (.all (p.map (List.map log)))
    else .error .value
  natural.bind fun nat =>
    if base ≤ 0 then .error .value
    else if log base = 0 then .error .zeroDivision
    else .ok (nat.map ((-1 / log base) * ·))

/-! ### image_to_255_scale -/

/-- `image_to_255_scale`: `neuralcompression/functional/_image_to_255_scale.py:12-37`, on the list of pixel
values; `max` of an empty tensor fails. The optional conversion of the (integral) result to another dtype
is not modelled. -/
noncomputable def imageTo255Scale (image : List ℝ) : Except Err (List ℝ) :=
  if image.isEmpty then .error .runtime
  else if ∃ p ∈ image, p > 1 then .error .value
  else if ∃ p ∈ image, p < 0 then .error .value
  else .ok (image.map fun p => (roundHalfEven (p * 255) : ℝ))

/-! ### quantization_offset -/

/-- `quantization_offset`: `neuralcompression/functional/_quantization_offset.py:11-44`; `none` stands for a
distribution without a mean. -/
noncomputable def quantizationOffset (mean : Option ℝ) : ℝ :=
  let offset := mean.getD 0
  offset - roundHalfEven offset

end Verif.Functional
