import Verif.Train.Loss
import Verif.Train.Rate

/-!
Model of the backward passes of the training losses: `/repo/neuralcompression/loss_fn/_binary_crossentropy_loss.py`,
`_oasis_loss.py`, `_normfix_lpips.py`, `_mse_lpips_loss.py` and the rate loss of
`/repo/projects/illm/target_compression_module.py:84-137`. `g` is always the gradient of the loss itself.

Simplifications: floats are real numbers; PyTorch's backward rules are transcribed. The network of LPIPS is an arbitrary
function with an arbitrary backward pass. The reference image of a distortion loss takes no gradient.
-/

namespace Verif.Train.LossGrad

open Verif.Train.Loss
open scoped BigOperators

/-! ### Binary cross-entropy -/

/-- `torch.sigmoid`. -/
noncomputable def sigm (x : ℝ) : ℝ := 1 / (1 + Real.exp (-x))

/-- `F.binary_cross_entropy_with_logits` backwards: `(sigmoid(x) - t) / n`. -/
noncomputable def bceBack (logits target : Tensor ℝ) (g : ℝ) : Except Err (ℕ → ℝ) :=
  if logits.shape ≠ target.shape then .error .value
  else .ok fun i => g * (sigm (logits.data i) - target.data i) / logits.numel

/-- `BinaryCrossentropyDiscriminatorLoss.__call__` backwards: `_binary_crossentropy_loss.py:30-44`; the gradients of the real
and of the fake logits. -/
noncomputable def bceDiscriminatorBack (realLogits fakeLogits target : Tensor ℝ) (g : ℝ) :
    Except Err ((ℕ → ℝ) × (ℕ → ℝ)) := do
  let target ← expandTarget realLogits target
  let a ← bceBack realLogits target (g * 0.5)
  let b ← bceBack fakeLogits ⟨target.shape, fun _ => 0⟩ (g * 0.5)
  return (a, b)

/-- `BinaryCrossentropyGeneratorLoss.__call__` backwards: `_binary_crossentropy_loss.py:64-70`. -/
noncomputable def bceGeneratorBack (logits target : Tensor ℝ) (g : ℝ) : Except Err (ℕ → ℝ) := do
  let target ← expandTarget logits target
  bceBack logits target g

/-! ### OASIS -/

/-- `torch.softmax` over the classes. -/
noncomputable def softmax (classes : ℕ) (x : ℕ → ℝ) (c : ℕ) : ℝ :=
  Real.exp (x c) / ∑ k ∈ Finset.range classes, Real.exp (x k)

/-- `F.cross_entropy` backwards, for the logit of class `c` at position `p` of image `b`: `_oasis_loss.py:66-70`, `109`. Positions
with the ignored label -100 get zero. -/
noncomputable def crossEntropyBack (l : Logits) (labels : ℕ → ℕ → ℤ) (g : ℝ) : Except Err (ℕ → ℕ → ℕ → ℝ) :=
  open Classical in
  if ∀ b < l.batch, ∀ p < l.height * l.width, labels b p = -100 ∨ (0 ≤ labels b p ∧ labels b p < l.classes) then
    .ok fun b c p =>
      if labels b p = -100 then 0
      else g * (softmax l.classes (fun c => l.data b c p) c - if (c : ℤ) = labels b p then 1 else 0) /
        (∑ b ∈ Finset.range l.batch, ∑ p ∈ Finset.range (l.height * l.width), if labels b p = -100 then 0 else 1 : ℕ)
  else .error .index

/-- `OASISDiscriminatorLoss.__call__` backwards: `_oasis_loss.py:42-72`. -/
noncomputable def oasisDiscriminatorBack (real fake : Logits) (t : Target) (g : ℝ) :
    Except Err ((ℕ → ℕ → ℕ → ℝ) × (ℕ → ℕ → ℕ → ℝ)) := do
  verifyShape real t
  verifyShape fake t
  if !t.long then .error .value
  let a ← crossEntropyBack real (fun b p => t.view real b p + 1) (g * 0.5)
  let b ← crossEntropyBack fake (fun _ _ => 0) (g * 0.5)
  return (a, b)

/-- `OASISGeneratorLoss.__call__` backwards: `_oasis_loss.py:90-109`. -/
noncomputable def oasisGeneratorBack (l : Logits) (t : Target) (g : ℝ) : Except Err (ℕ → ℕ → ℕ → ℝ) := do
  verifyShape l t
  if !t.long then .error .value
  crossEntropyBack l (fun b p => t.view l b p + 1) g

/-! ### LPIPS -/

/-- `normalize_tensor` backwards at one position: `_normfix_lpips.py:11-13`; division, square root, sum, square. -/
noncomputable def normalizeTensorBack {C : ℕ} (eps : ℝ) (x g : Fin C → ℝ) : Fin C → ℝ :=
  let factor := √(∑ j, (x j ^ 2 + eps))
  let gFactor := -∑ j, g j * x j / factor ^ 2
  let gSum := gFactor / (2 * factor)
  fun c => g c / factor + gSum * (2 * x c)

/-- The backward pass of the network up to a layer: from the gradient of the features of the layer to the one of the image. -/
abbrev Vjp (n : ℕ) (l : LpipsLayer (Fin n → ℝ)) :=
  (Fin n → ℝ) → (Fin l.positions → Fin l.channels → ℝ) → Fin n → ℝ

/-- One layer backwards to its features of the first image: `_normfix_lpips.py:51-55`, `57-78`. -/
noncomputable def resultBack {n : ℕ} (l : LpipsLayer (Fin n → ℝ)) (trained : Bool) (x y : Fin n → ℝ) (g : ℝ) :
    Fin l.positions → Fin l.channels → ℝ :=
  fun p => normalizeTensorBack 1e-8 (l.features x p) fun c =>
    g / l.positions * (if trained then l.lin c else 1) *
      (2 * (normalizeTensor 1e-8 (l.features x p) c - normalizeTensor 1e-8 (l.features y p) c))

/-- A layer with its backward pass. -/
abbrev LayerBack (n : ℕ) := (l : LpipsLayer (Fin n → ℝ)) × Vjp n l

/-- `NormFixLPIPS.forward` backwards to the first image: `_normfix_lpips.py:35-87`; with `normalize` the image was mapped to
`2 x - 1` (39-40). -/
noncomputable def lpipsBack {n : ℕ} (layers : List (LayerBack n)) (trained normalize : Bool) (x y : Fin n → ℝ) (g : ℝ) :
    Fin n → ℝ :=
  let x := if normalize then fun i => 2 * x i - 1 else x
  let y := if normalize then fun i => 2 * y i - 1 else y
  fun i => (if normalize then 2 else 1) * (layers.map fun l => l.2 x (resultBack l.1 trained x y g) i).sum

/-- `MSELPIPSLoss.__call__` backwards to the image: `_mse_lpips_loss.py:46-61`. -/
noncomputable def mseLpipsBack {B n : ℕ} (mseParam lpipsParam : ℝ) (normalize : Bool) (layers : List (LayerBack n))
    (trained : Bool) (x y : Fin B → Fin n → ℝ) (g : ℝ) : Fin B → Fin n → ℝ :=
  fun b i => g * mseParam * (2 * (x b i - y b i)) / (B * n : ℕ) +
    lpipsBack layers trained normalize (x b) (y b) (g * lpipsParam / B) i

/-! ### Rate -/

/-- `_calc_bits_per_batch` backwards for one likelihood: `target_compression_module.py:84-87`. -/
noncomputable def bitsBack (likelihood g : ℝ) : ℝ := g / -Real.log 2 / likelihood

/-- The gradients of the likelihoods of one image. -/
structure LikelihoodGrads where
  latent : List ℝ
  quantizedLatent : List ℝ
  hyper : List ℝ
  quantizedHyper : List ℝ

open Verif.Train.Rate in
/-- `rate_loss` backwards: `target_compression_module.py:89-137`. The comparison with the target carries no gradient. -/
noncomputable def rateLossBack {B : ℕ} (c : Config) (globalStep : ℤ) (height width : ℕ) (p : Fin B → Likelihoods) (g : ℝ) :
    Except Rate.Err (Fin B → LikelihoodGrads) := do
  let numPixels : ℝ := (height * width : ℕ)
  let target ← scheduled globalStep c.targetBpp c.targetFactors c.targetSteps
  let lam2 ← scheduled globalStep c.lamLevels.2 c.lam2Factors c.lam2Steps
  let lams := fun b => open Classical in
    if bits (p b).quantizedLatent / numPixels + bits (p b).quantizedHyper / numPixels > target then lam2 else c.lamLevels.1
  let gTotal := fun b => g / B * lams b / numPixels
  return fun b =>
    { latent := (p b).latent.map fun v => bitsBack v (gTotal b)
      quantizedLatent := (p b).quantizedLatent.map fun _ => 0
      hyper := (p b).hyper.map fun v => bitsBack v (gTotal b)
      quantizedHyper := (p b).quantizedHyper.map fun _ => 0 }

end Verif.Train.LossGrad
