import Verif.Functional.Gradients
import Verif.Functional.SoftRound

/-!
Model of the gradients that autograd computes for soft rounding: `neuralcompression/functional/_soft_round.py`,
`_soft_round_inverse.py` and `_soft_round_conditional_mean.py`.

Tensors are values with backward passes as in `Functional/Gradients.lean`, with the simplifications stated there. `th` is the implementation of
`torch.tanh`. Nothing else is rounded: in single precision the other operations are exact for the arguments of the violation, integers
of moderate size.
-/

namespace Verif.Functional.Gradients

open Real Verif.Layers

/-- `torch.atanh` of a number. -/
noncomputable def atanhF : F → F
  | .val x => if x = 1 then .posInf else if x = -1 then .negInf else if |x| < 1 then .val (artanh x) else .nan
  | _ => .nan

/-- `torch.clamp` of a number or an infinity. -/
noncomputable def clampF (lo hi : ℝ) : F → F
  | .val x => .val (min (max x lo) hi)
  | .posInf => .val hi
  | .negInf => .val lo
  | .nan => .nan

namespace Node

/-- `torch.floor`: the backward pass is zero. -/
noncomputable def floor (a : Node) : Node := ⟨onVal (fun x => (⌊x⌋ : ℝ)) a.val, fun _ => a.back (.val 0)⟩

/-- `torch.tanh`, with the values `th`: the backward pass is `grad * (1 - result ** 2)`. -/
noncomputable def tanh (th : ℝ → ℝ) (a : Node) : Node :=
  ⟨onVal th a.val, fun g => a.back (mul g (onVal (fun x => 1 - th x ^ 2) a.val))⟩

/-- `torch.atanh`: the backward pass is `grad * 1 / (1 - a ** 2)`. -/
noncomputable def atanh (a : Node) : Node :=
  ⟨atanhF a.val, fun g => a.back (div (mul g (.val 1)) (onVal (fun x => 1 - x ^ 2) a.val))⟩

open Classical in
/-- `torch.clamp`: the gradient is passed on where `lo <= a <= hi`. -/
noncomputable def clamp (lo hi : ℝ) (a : Node) : Node :=
  ⟨clampF lo hi a.val, fun g => a.back (if a.val.Lt (.val lo) ∨ (F.val hi).Lt a.val then .val 0 else g)⟩

end Node

/-- `soft_round`: `_soft_round.py:29-37`. -/
noncomputable def softRoundN (th : ℝ → ℝ) (alpha eps : ℝ) (x : Node) : Node :=
  let maximum := max alpha eps
  let m := x.floor.shift 0.5
  let z := th (maximum / 2) * 2
  let y := m.add (((Node.tanh th ((x.add (m.scale (-1))).scale maximum))).over (Node.const z))
  Node.sel (alpha < eps) x y

/-- `soft_round_inverse`: `_soft_round_inverse.py:28-40`. -/
noncomputable def softRoundInverseN (th : ℝ → ℝ) (alpha eps : ℝ) (y : Node) : Node :=
  let maximum := max alpha eps
  let m := y.floor.shift 0.5
  let s := (y.add (m.scale (-1))).scale (th (maximum / 2) * 2)
  let r := s.atanh.over (Node.const maximum)
  let r := r.clamp (-0.5) 0.5
  let x := m.add r
  Node.sel (alpha < eps) y x

/-- `soft_round_conditional_mean`: `_soft_round_conditional_mean.py:37`. -/
noncomputable def softRoundConditionalMeanN (th : ℝ → ℝ) (alpha : ℝ) (x : Node) : Node :=
  (softRoundInverseN th alpha defaultEps (x.shift (-0.5))).shift 0.5

end Verif.Functional.Gradients
