import Verif.Functional.NormalCdf
import Mathlib.Data.Sign.Defs

/-!
Model of `neuralcompression/functional/_estimate_tails.py`, `_lower_tail.py` and `_upper_tail.py`.

Real numbers stand for floating point numbers. The function whose tail is looked for acts elementwise and is
given with its derivative, which automatic differentiation supplies. The choice of the device is not
modelled.
-/

namespace Verif.Functional.Tails

open Real

/-- One element of the tensors `tails`, `mean`, `variance` and `counts`. -/
structure Adam where
  tail : ℝ
  mean : ℝ
  variance : ℝ
  count : ℕ

/-- The initial values: `_estimate_tails.py:54-57`. -/
noncomputable def Adam.init : Adam := ⟨0, 0, 1, 0⟩

/-- `torch.finfo(torch.float32).eps`: `_estimate_tails.py:53`. -/
noncomputable def eps : ℝ := 2⁻¹ ^ 23

/-- The gradient of `abs(func(x) - target)` that autograd computes: the derivative of `abs` is the sign, zero
at zero: `_estimate_tails.py:60-63`. -/
noncomputable def gradient (f f' : ℝ → ℝ) (target x : ℝ) : ℝ := (SignType.sign (f x - target) : ℝ) * f' x

/-- One iteration for one element with gradient function `g`: `_estimate_tails.py:65-74`. -/
noncomputable def Adam.step (g : ℝ → ℝ) (s : Adam) : Adam :=
  let gr := g s.tail
  let mean := 0.9 * s.mean + (1 - 0.9) * gr
  let variance := 0.99 * s.variance + (1 - 0.99) * gr ^ 2
  let tail := s.tail - 1e-2 * mean / (√variance + eps)
  ⟨tail, mean, variance, if s.count > 0 ∨ gr * tail > 0 then s.count + 1 else s.count⟩

/-- The tensors as a family of elements; `ι` is the set of indices given by `shape`. -/
abbrev State (ι : Type) := ι → Adam

/-- The condition of the loop, `torch.min(counts) < 100`: `_estimate_tails.py:59`. -/
def Continue {ι : Type} (s : State ι) : Prop := ∃ i, (s i).count < 100

/-- The while loop: `Loop g s t` says that started in `s` it ends in `t`. -/
inductive Loop {ι : Type} (g : ι → ℝ → ℝ) : State ι → State ι → Prop
  | done {s} : ¬ Continue s → Loop g s s
  | next {s t} : Continue s → Loop g (fun i => (s i).step (g i)) t → Loop g s t

/-- `estimate_tails` returns `x`: `_estimate_tails.py:12-78`. -/
def EstimateTails {ι : Type} (f f' : ι → ℝ → ℝ) (target : ℝ) (x : ι → ℝ) : Prop :=
  ∃ t, Loop (fun i => gradient (f i) (f' i) target) (fun _ => Adam.init) t ∧ x = fun i => (t i).tail

/-- A batch of continuous distributions of one class: `icdf` if the class implements it, and for each element
what `log_cdf` and `log_survival_function` compute, with their derivatives. -/
structure Batch (ι : Type) where
  icdf : Option (ι → ℝ → ℝ)
  logCdf : ι → ℝ → ℝ
  logCdf' : ι → ℝ → ℝ
  logSf : ι → ℝ → ℝ
  logSf' : ι → ℝ → ℝ

/-- `lower_tail` returns `x`: `_lower_tail.py:16-51`. -/
def LowerTail {ι : Type} (d : Batch ι) (tailMass : ℝ) (x : ι → ℝ) : Prop :=
  match d.icdf with
  | some q => x = fun i => q i (tailMass / 2)
  | none => EstimateTails d.logCdf d.logCdf' (log (tailMass / 2)) x

/-- `upper_tail` returns `x`: `_upper_tail.py:16-51`. -/
def UpperTail {ι : Type} (d : Batch ι) (tailMass : ℝ) (x : ι → ℝ) : Prop :=
  match d.icdf with
  | some q => x = fun i => q i (1 - tailMass / 2)
  | none => EstimateTails d.logSf d.logSf' (log (tailMass / 2)) x

/-- A class that is neither `Normal` nor `Uniform` and has `cdf` but no `icdf`, such as
`torch.distributions.MixtureSameFamily`; `pdf` is the derivative of `cdf`. The functions are those of
`_log_cdf.py:34-36` and `_log_survival_function.py:31-33`, as modelled in `NormalCdf.lean`. -/
noncomputable def ofCdf {ι : Type} (cdf pdf : ι → ℝ → ℝ) : Batch ι where
  icdf := none
  logCdf := fun i x => ((Functional.logCdf .float32 x (.other (cdf i))).toOption).getD 0
  logCdf' := fun i x => pdf i x / cdf i x
  logSf := fun i x => ((Functional.logSurvivalFunction .float32 x (.other (cdf i))).toOption).getD 0
  logSf' := fun i x => -pdf i (-x) / (1 + cdf i (-x))

end Verif.Functional.Tails
