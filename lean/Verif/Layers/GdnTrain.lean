import Verif.Layers.Norm

/-!
Model of training through the layers of `/repo/neuralcompression/layers/_simplified_gdn.py`: the backward pass of
`forward`, and a layer that is trained and evaluated in any order.

PyTorch's backward passes of division, product, 1 × 1 convolution and absolute value are written out. The clamping acts
on `.data`, so autograd does not see it: the gradient arrives at the parameters as they are after the clamping.

Simplifications: floats are real numbers; a batch of images is its list of pixels (1 × 1 convolutions).
-/

namespace Verif.Layers.GdnTrain

open scoped BigOperators

open Verif.Layers.Norm

variable {C P : ℕ}

/-- The gradients that the backward pass of a layer leaves. -/
structure Grads (C P : ℕ) where
  gamma : Fin C → Fin C → ℝ
  beta : Fin C → ℝ
  image : Fin P → Fin C → ℝ

/-- `sign` in the backward pass of `torch.abs`: zero at zero. -/
noncomputable def signOf (x : ℝ) : ℝ := if 0 < x then 1 else if x < 0 then -1 else 0

/-- The backward pass of `F.conv2d(torch.abs(image), self.gamma, self.beta)` for the gradient `n` of its result:
`_simplified_gdn.py:77`, `124`. The last part is what it adds to the gradient of the image. -/
noncomputable def convBackward (g : Gdn C) (x : Fin P → Fin C → ℝ) (n : Fin P → Fin C → ℝ) : Grads C P where
  gamma := fun i j => ∑ p, n p i * |x p j|
  beta := fun i => ∑ p, n p i
  image := fun p j => (∑ i, g.gamma i j * n p i) * signOf (x p j)

/-- The backward pass of `SimplifiedGDN.forward` for the gradient `up` of its output, with the parameters `g` that the
clamping left: `_simplified_gdn.py:77`. -/
noncomputable def backward (g : Gdn C) (x up : Fin P → Fin C → ℝ) : Grads C P :=
  let n := fun p i => -(up p i * x p i) / (g.norm (x p) i) ^ 2
  let c := convBackward g x n
  { c with image := fun p j => up p j / g.norm (x p) j + c.image p j }

/-- The backward pass of `SimplifiedInverseGDN.forward`: `_simplified_gdn.py:124`. -/
noncomputable def backwardInverse (g : Gdn C) (x up : Fin P → Fin C → ℝ) : Grads C P :=
  let n := fun p i => up p i * x p i
  let c := convBackward g x n
  { c with image := fun p j => up p j * g.norm (x p) j + c.image p j }

/-- The layer, forward on all pixels, with the parameters that stay in it: `_simplified_gdn.py:63-77`, `110-124`. -/
noncomputable def call (inverse : Bool) (g : Gdn C) (x : Fin P → Fin C → ℝ) : Gdn C × (Fin P → Fin C → ℝ) :=
  let g' := g.clamp
  (g', fun p => if inverse then (g'.inverse (x p)).2 else (g'.forward (x p)).2)

/-- What happens to a layer: it is evaluated on a batch, or a step of training: the rest of the loss sends back a
gradient that depends on the output of the layer, and the optimiser (with its state) changes the parameters. -/
inductive Event (C P : ℕ) (S : Type) where
  | evaluate (x : Fin P → Fin C → ℝ)
  | train (x : Fin P → Fin C → ℝ) (up : (Fin P → Fin C → ℝ) → Fin P → Fin C → ℝ)
      (opt : S → Gdn C → Grads C P → S × (Fin C → Fin C → ℝ) × (Fin C → ℝ))

/-- One event: `_simplified_gdn.py:63-77`, `110-124`, then, in training, `backward` and the optimiser's step. The third
part of the result is the output of a training step. -/
noncomputable def step {S : Type} (inverse : Bool) (s : S) (g : Gdn C) :
    Event C P S → S × Gdn C × Option (Fin P → Fin C → ℝ)
  | .evaluate x => (s, (call inverse g x).1, none)
  | .train x up opt =>
    let r := call inverse g x
    let grads := if inverse then backwardInverse r.1 x (up r.2) else backward r.1 x (up r.2)
    let o := opt s r.1 grads
    (o.1, ⟨o.2.1, o.2.2, r.1.betaMin⟩, some r.2)

/-- A history of events: the state at the end, and the outputs of the training steps. -/
noncomputable def run {S : Type} (inverse : Bool) (s : S) (g : Gdn C) :
    List (Event C P S) → S × Gdn C × List (Fin P → Fin C → ℝ)
  | [] => (s, g, [])
  | e :: es =>
    let r := step inverse s g e
    let rest := run inverse r.1 r.2.1 es
    (rest.1, rest.2.1, r.2.2.toList ++ rest.2.2)

/-- Plain gradient descent with learning rate `lr`. -/
noncomputable def sgd (lr : ℝ) (_ : Unit) (g : Gdn C) (d : Grads C P) :
    Unit × (Fin C → Fin C → ℝ) × (Fin C → ℝ) :=
  ((), fun i j => g.gamma i j - lr * d.gamma i j, fun i => g.beta i - lr * d.beta i)

/-- `_ClampMin.backward`, if autograd ever ran it: `_simplified_gdn.py:21-25`. It returns one gradient, where the
operation has two inputs; PyTorch raises a `RuntimeError` then (`none`). -/
def clampMinBackward (inputs : ℕ) (grads : List ℝ) : Option (List ℝ) := if grads.length = inputs then some grads else none

/-- `_clamp_min` and what `backward` through it does: `_simplified_gdn.py:12-30`. Autograd records the operation only
for a tensor that requires a gradient. The value, and the result of `backward` (`none` inside is `RuntimeError`, outside
that autograd has nothing to do). -/
noncomputable def clampMin (requiresGrad : Bool) (data min grad : ℝ) : ℝ × Option (Option (List ℝ)) :=
  (max data min,
    if requiresGrad then some (clampMinBackward 2 [if min ≤ data ∨ grad < 0 then grad else 0]) else none)

end Verif.Layers.GdnTrain
