import Verif.Vct.Settings
import Mathlib.Algebra.Order.Floor.Ring
import Mathlib.Data.Real.Archimedean

/-!
# Stochastic depth

`StochasticDepth` (`/repo/projects/torch_vct/neural/layers_utils.py:281-307`) and the skip connections of
`TransformerBlock` (`entropy_model_layers.py:183-224`) that use it.  A batch is a function from samples and positions to
numbers; numbers are real, and `none` stands for a floating-point value that is infinite or no number.  The uniform draws
are parameters, one per sample and call.
-/

namespace Verif.Vct.Depth

/-- Where a tensor lives. -/
inductive Device
  | cpu
  | cuda
  deriving DecidableEq

/-- `RuntimeError`: tensors on different devices. -/
inductive Err
  | device
  deriving DecidableEq

variable {S P : Type}

/-- One element: `input / keep_prob * floor(keep_prob + draw)` (layers_utils.py:300-307). -/
noncomputable def element (rate u x : ℝ) : Option ℝ :=
  let keep := 1 - rate
  if keep = 0 then none else some (x / keep * (⌊keep + u⌋ : ℤ))

/-- `StochasticDepth.forward` (layers_utils.py:296-307).  `torch.rand` is given no device (303-305), so the draws are on
the CPU; multiplying them with an input elsewhere raises. -/
noncomputable def depth (training : Bool) (rate : ℝ) (dev : Device) (u : S → ℝ) (x : S → P → ℝ) :
    Except Err (S → P → Option ℝ) :=
  if training = false ∨ rate = 0 then .ok (fun s p => some (x s p))
  else if dev = .cuda then .error .device
  else .ok (fun s p => element rate (u s) (x s p))

/-- A skip connection `x + drop_path(f(x))` (entropy_model_layers.py:209, 211, 221, 223); not finite as soon as one summand
is not. -/
noncomputable def skip (training : Bool) (rate : ℝ) (dev : Device) (u : S → ℝ) (f : (S → P → ℝ) → S → P → ℝ)
    (x : S → P → ℝ) : Except Err (S → P → Option ℝ) :=
  match depth training rate dev u (f x) with
  | .error e => .error e
  | .ok y => .ok (fun s p => (y s p).map (x s p + ·))

/-- Four skip connections with a draw each, as in `TransformerBlock.forward` (entropy_model_layers.py:199-224): the parts
are self-attention, MLP, cross-attention and MLP, each with its normalisation, as functions of the batch.  `none` is the
answer if any value on the way is not finite. -/
noncomputable def chain (training : Bool) (rate : ℝ) (dev : Device) :
    List ((S → ℝ) × ((S → P → ℝ) → S → P → ℝ)) → (S → P → ℝ) → Except Err (Option (S → P → ℝ))
  | [], x => .ok (some x)
  | (u, f) :: rest, x =>
    match skip training rate dev u f x with
    | .error e => .error e
    | .ok y =>
      open Classical in
      if ∀ s p, (y s p).isSome then chain training rate dev rest (fun s p => (y s p).getD 0) else .ok none

end Verif.Vct.Depth
