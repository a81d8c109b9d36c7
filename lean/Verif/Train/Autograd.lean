import Mathlib.Analysis.Calculus.FDeriv.Add
import Mathlib.Analysis.Calculus.FDeriv.Mul
import Mathlib.Analysis.Calculus.FDeriv.Prod
import Mathlib.Analysis.Calculus.FDeriv.Comp
import Mathlib.Analysis.Calculus.FDeriv.Pi
import Verif.Round

/-!
Tensors that carry what PyTorch's autograd knows about them, as far as the training code of `/repo` uses it.

The tensors that an optimiser may change (or that we ask the gradient of) make up a space `V`; the point of `V` at which
a training step runs is fixed.  A tensor is then its value together with the linear map that says how a small change of
the leaves changes it, according to autograd.  The gradient that `backward` of a loss leaves in the parameters is this
linear map of the loss.

Simplifications: PyTorch is trusted to apply the chain rule exactly; arithmetic is that of the real numbers; whether a
missing gradient is stored as `None` or as zero is not distinguished here.
-/

namespace Verif.Train.Autograd

/-- A tensor with its value and its derivative with respect to the leaves. -/
structure Node (V E : Type) [NormedAddCommGroup V] [NormedSpace ℝ V] [NormedAddCommGroup E] [NormedSpace ℝ E] where
  val : E
  der : V →L[ℝ] E

/-- A differentiable operation or network (its parameters are part of the input): its values, and the derivative that
its backward pass applies. -/
structure Op (E F : Type) [NormedAddCommGroup E] [NormedSpace ℝ E] [NormedAddCommGroup F] [NormedSpace ℝ F] where
  fn : E → F
  jac : E → E →L[ℝ] F

variable {V E F : Type} [NormedAddCommGroup V] [NormedSpace ℝ V] [NormedAddCommGroup E] [NormedSpace ℝ E]
  [NormedAddCommGroup F] [NormedSpace ℝ F]

namespace Node

/-- Data, noise and targets: tensors without a history; also every tensor made under `torch.no_grad()`. -/
def const (x : E) : Node V E := ⟨x, 0⟩

/-- A parameter: a component of the leaves; without `requires_grad` autograd does not follow it
(`/repo/projects/illm/gan_compression_module.py:59-67`). -/
def leaf (part : V →L[ℝ] E) (at_ : V) (requiresGrad : Bool) : Node V E := ⟨part at_, if requiresGrad then part else 0⟩

/-- `Tensor.detach`. -/
def detach (a : Node V E) : Node V E := ⟨a.val, 0⟩

/-- `a + b`. -/
def add (a b : Node V E) : Node V E := ⟨a.val + b.val, a.der + b.der⟩

/-- `a - b`. -/
def sub (a b : Node V E) : Node V E := ⟨a.val - b.val, a.der - b.der⟩

/-- A fixed number times a tensor. -/
def scale (c : ℝ) (a : Node V E) : Node V E := ⟨c • a.val, c • a.der⟩

/-- Two inputs of a network. -/
def pair (a : Node V E) (b : Node V F) : Node V (E × F) := ⟨(a.val, b.val), a.der.prod b.der⟩

/-- Several inputs of one kind. -/
def pi {n : ℕ} (a : Fin n → Node V E) : Node V (Fin n → E) := ⟨fun i => (a i).val, ContinuousLinearMap.pi fun i => (a i).der⟩

/-- A call of a network or of an operation. -/
def apply (f : Op E F) (a : Node V E) : Node V F := ⟨f.fn a.val, (f.jac a.val).comp a.der⟩

/-- `torch.round`: its backward pass gives zero. -/
noncomputable def round {ι : Type} [Fintype ι] (a : Node V (ι → ℝ)) : Node V (ι → ℝ) :=
  ⟨fun i => (roundHalfEven (a.val i) : ℝ), 0⟩

end Node

/-- The straight-through rounding `(torch.round(x) - x).detach() + x`:
`/repo/projects/torch_vct/neural/entropy_model.py:197-202`, `/repo/projects/torch_vct/neural/bottlenecks.py:349-352`,
and `quantize_ste` of CompressAI (trusted to be this). -/
noncomputable def roundSt {ι : Type} [Fintype ι] (x : Node V (ι → ℝ)) : Node V (ι → ℝ) := ((x.round.sub x).detach).add x

end Verif.Train.Autograd
