import Mathlib.Analysis.SpecialFunctions.Log.Basic
import Mathlib.Analysis.SpecialFunctions.Sqrt
import Mathlib.Data.Fintype.BigOperators
import Mathlib.Data.Real.Basic

/-!
Model of the loss functions of `/repo/neuralcompression/loss_fn`: `_binary_crossentropy_loss.py`, `_oasis_loss.py`,
`_normfix_lpips.py`, `_mse_loss.py` and `_mse_lpips_loss.py`.

Simplifications: floats are real numbers. A tensor is its shape with a function of the position in the contiguous
order. The networks of LPIPS are arbitrary functions of the input; their linear layers have one weight for every
channel and no bias.
-/

namespace Verif.Train.Loss

open scoped BigOperators

/-- The exceptions. -/
inductive Err | value | index
deriving DecidableEq, Repr

/-- A tensor: shape and contiguous data. -/
structure Tensor (α : Type) where
  shape : List ℕ
  data : ℕ → α

/-- `numel`. -/
def Tensor.numel {α : Type} (t : Tensor α) : ℕ := t.shape.prod

/-- The mean over all elements. -/
noncomputable def Tensor.mean (t : Tensor ℝ) : ℝ := (∑ i ∈ Finset.range t.numel, t.data i) / t.numel

/-! ### Binary cross-entropy -/

/-- `F.binary_cross_entropy_with_logits` of one element, as torch computes it. -/
noncomputable def bce (x t : ℝ) : ℝ := max x 0 - x * t + Real.log (1 + Real.exp (-|x|))

/-- `F.binary_cross_entropy_with_logits`: the shapes must be the same. -/
noncomputable def bceLoss (logits target : Tensor ℝ) : Except Err ℝ :=
  if logits.shape ≠ target.shape then .error .value
  else .ok (Tensor.mean ⟨logits.shape, fun i => bce (logits.data i) (target.data i)⟩)

/-- The treatment of the target: `_binary_crossentropy_loss.py:33-36`, `65-68`. -/
def expandTarget (logits target : Tensor ℝ) : Except Err (Tensor ℝ) :=
  if target.shape.length = 0 then .ok ⟨logits.shape, fun _ => target.data 0 * 1⟩
  else if target.shape.length ≠ logits.shape.length then .error .value
  else .ok target

/-- `BinaryCrossentropyDiscriminatorLoss.__call__`: `_binary_crossentropy_loss.py:30-44`. -/
noncomputable def bceDiscriminator (realLogits fakeLogits target : Tensor ℝ) : Except Err ℝ := do
  let target ← expandTarget realLogits target
  let a ← bceLoss realLogits target
  let b ← bceLoss fakeLogits ⟨target.shape, fun _ => 0⟩
  return 0.5 * (a + b)

/-- `BinaryCrossentropyGeneratorLoss.__call__`: `_binary_crossentropy_loss.py:64-70`. -/
noncomputable def bceGenerator (logits target : Tensor ℝ) : Except Err ℝ := do
  let target ← expandTarget logits target
  bceLoss logits target

/-! ### OASIS -/

/-- A 4-D map of logits: batch, classes, height times width. -/
structure Logits where
  batch : ℕ
  classes : ℕ
  height : ℕ
  width : ℕ
  data : ℕ → ℕ → ℕ → ℝ

/-- A target map: its number of elements, whether its type is `long`, and the contiguous data. -/
structure Target where
  numel : ℕ
  long : Bool
  data : ℕ → ℤ

/-- `_verify_logit_target_shape` for 4-D logits: `_oasis_loss.py:13-24`. -/
def verifyShape (l : Logits) (t : Target) : Except Err Unit :=
  if l.batch * l.height * l.width ≠ t.numel then .error .value else .ok ()

/-- The cross-entropy of one position: the logarithm of the sum of the exponentials minus the logit of the label. -/
noncomputable def crossEntropy (classes : ℕ) (x : ℕ → ℝ) (label : ℕ) : ℝ :=
  Real.log (∑ c ∈ Finset.range classes, Real.exp (x c)) - x label

/-- `F.cross_entropy(logits.view(batch, classes, -1), labels)`: torch leaves out positions with the label -100 (the default
`ignore_index`) and raises `IndexError` for other labels that are no class. (The mean of nothing, not a number in torch, is zero
here.) -/
noncomputable def crossEntropyLoss (l : Logits) (labels : ℕ → ℕ → ℤ) : Except Err ℝ :=
  open Classical in
  if ∀ b < l.batch, ∀ p < l.height * l.width, labels b p = -100 ∨ (0 ≤ labels b p ∧ labels b p < l.classes) then
    .ok ((∑ b ∈ Finset.range l.batch, ∑ p ∈ Finset.range (l.height * l.width),
      if labels b p = -100 then 0 else crossEntropy l.classes (fun c => l.data b c p) (labels b p).toNat) /
      (∑ b ∈ Finset.range l.batch, ∑ p ∈ Finset.range (l.height * l.width), if labels b p = -100 then 0 else 1 : ℕ))
  else .error .index

/-- `target.view(batch_size, -1)`: `_oasis_loss.py:65`, `108`. -/
def Target.view (t : Target) (l : Logits) (b p : ℕ) : ℤ := t.data (b * (l.height * l.width) + p)

/-- `OASISDiscriminatorLoss.__call__` for logits of the same shape: `_oasis_loss.py:42-72`. -/
noncomputable def oasisDiscriminator (real fake : Logits) (t : Target) : Except Err ℝ := do
  verifyShape real t
  verifyShape fake t
  if !t.long then .error .value
  let a ← crossEntropyLoss real fun b p => t.view real b p + 1
  let b ← crossEntropyLoss fake fun _ _ => 0
  return 0.5 * (a + b)

/-- `OASISGeneratorLoss.__call__`: `_oasis_loss.py:90-109`. -/
noncomputable def oasisGenerator (l : Logits) (t : Target) : Except Err ℝ := do
  verifyShape l t
  if !t.long then .error .value
  crossEntropyLoss l fun b p => t.view l b p + 1

/-! ### LPIPS -/

/-- `normalize_tensor` at one position of a feature map with `C` channels: `_normfix_lpips.py:11-13`. -/
noncomputable def normalizeTensor {C : ℕ} (eps : ℝ) (x : Fin C → ℝ) : Fin C → ℝ :=
  fun i => x i / √(∑ j, (x j ^ 2 + eps))

/-- One layer of the network: its number of channels and of positions, its features of an input and, if the metric is
trained, the weights of its linear layer. -/
structure LpipsLayer (Input : Type) where
  channels : ℕ
  positions : ℕ
  features : Input → Fin positions → Fin channels → ℝ
  lin : Fin channels → ℝ

/-- The result of one layer, averaged over the positions: `_normfix_lpips.py:51-55`, `57-78`. `trained` is `self.lpips`;
`eps` has its default. -/
noncomputable def LpipsLayer.result {Input : Type} (l : LpipsLayer Input) (trained : Bool) (x y : Input) : ℝ :=
  (∑ p, ∑ c, (if trained then l.lin c else 1) *
    (normalizeTensor 1e-8 (l.features x p) c - normalizeTensor 1e-8 (l.features y p) c) ^ 2) / l.positions

/-- `NormFixLPIPS.forward` without `spatial`: `_normfix_lpips.py:35-87`. `toSigned` is `2 x - 1`. -/
noncomputable def lpips {Input : Type} (toSigned : Input → Input) (layers : List (LpipsLayer Input))
    (trained normalize : Bool) (x y : Input) : ℝ :=
  let x := if normalize then toSigned x else x
  let y := if normalize then toSigned y else y
  (layers.map fun l => l.result trained x y).sum

mutual

/-- A tree of modules with the flag `training`; `lpips` marks a `NormFixLPIPS`, whose method `train` is overridden. -/
inductive Mod where
  | node (lpips training : Bool) (children : Mods)

/-- The children of a module. -/
inductive Mods where
  | nil
  | cons (m : Mod) (ms : Mods)

end

mutual

/-- `Module.train`, with the override `_normfix_lpips.py:31-33`; `eval()` is `train(False)`. -/
def Mod.train (mode : Bool) : Mod → Mod
  | .node lpips _ children =>
    let mode := if lpips then false else mode
    .node lpips mode (Mods.train mode children)

/-- `train` of all children. -/
def Mods.train (mode : Bool) : Mods → Mods
  | .nil => .nil
  | .cons m ms => .cons (Mod.train mode m) (Mods.train mode ms)

end

/-! ### Distortion losses -/

/-- `F.mse_loss` of images with `n` elements. -/
noncomputable def mse {n : ℕ} (x y : Fin n → ℝ) : ℝ := (∑ i, (x i - y i) ^ 2) / n

/-- `MSELoss.__call__`: `_mse_loss.py:28-39`. -/
noncomputable def mseLoss {n : ℕ} (scale : ℝ) (x y : Fin n → ℝ) : ℝ := scale * mse x y

/-- `MSELPIPSLoss.__call__` for a batch of `B` images with `n` elements each: `_mse_lpips_loss.py:46-61`. -/
noncomputable def mseLpipsLoss {B n : ℕ} (mseParam lpipsParam : ℝ) (normalize : Bool)
    (layers : List (LpipsLayer (Fin n → ℝ))) (trained : Bool) (x y : Fin B → Fin n → ℝ) : ℝ :=
  mseParam * ((∑ b, ∑ i, (x b i - y b i) ^ 2) / (B * n : ℕ)) +
    lpipsParam * ((∑ b, lpips (fun z i => 2 * z i - 1) layers trained normalize (x b) (y b)) / B)

end Verif.Train.Loss
