import Verif.Functional.SinglePrecision

/-!
Model of the gradients that autograd computes for the logarithms of the normal distribution:
`neuralcompression/functional/_ndtr.py`, `_log_ndtr.py`, `_log_cdf.py`, `_log_survival_function.py`, `_survival_function.py`, `_log_expm1.py`, and
`prob` and `log_prob` of `neuralcompression/distributions/_uniform_noise.py`.

Tensors are modelled elementwise.  A tensor is its value together with its backward pass: what a gradient of the tensor adds to the
gradient of the one variable that we differentiate by.  Gradients are floating point numbers, with infinities and not-a-number:
`torch.where` sends the gradient zero to the branch that was not taken, and zero times infinity is not a number.

Simplifications: the sign of zero is not modelled; gradients of a tensor that is used several times are passed on one by one
instead of their sum; gradients are not rounded.  Values are rounded to single precision inside of `ndtr` (`r` is the rounding, the
identity for exact arithmetic), elsewhere they are real numbers.  The backward passes of the operations are those of torch
2.0.1.
-/

namespace Verif.Functional.Gradients

open Real Verif.Layers

/-! ### Floating point numbers -/

/-- Infinity of the sign of `s`, not-a-number for zero. -/
noncomputable def infOf (s : ℝ) : F := if 0 < s then .posInf else if s < 0 then .negInf else .nan

/-- `*`. -/
noncomputable def mul : F → F → F
  | .val x, .val y => .val (x * y)
  | .val x, .posInf => infOf x
  | .val x, .negInf => infOf (-x)
  | .posInf, .val y => infOf y
  | .negInf, .val y => infOf (-y)
  | .posInf, .posInf => .posInf
  | .posInf, .negInf => .negInf
  | .negInf, .posInf => .negInf
  | .negInf, .negInf => .posInf
  | _, _ => .nan

/-- `/`. -/
noncomputable def div : F → F → F
  | .val x, .val y => if y = 0 then infOf x else .val (x / y)
  | .val _, .posInf => .val 0
  | .val _, .negInf => .val 0
  | .posInf, .val y => if y = 0 then .posInf else infOf y
  | .negInf, .val y => if y = 0 then .negInf else infOf (-y)
  | _, _ => .nan

/-- `torch.log`. -/
noncomputable def logF : F → F
  | .val x => F.log x
  | .posInf => .posInf
  | _ => .nan

/-- `torch.exp`. -/
noncomputable def expF : F → F
  | .val x => .val (exp x)
  | .posInf => .posInf
  | .negInf => .val 0
  | .nan => .nan

/-- A function that is only called with numbers here. -/
def onVal (f : ℝ → ℝ) : F → F
  | .val x => .val (f x)
  | _ => .nan

/-! ### Tensors with their backward passes -/

/-- A tensor: its value, and what a gradient of it adds to the gradient of the variable. -/
structure Node where
  val : F
  back : F → F

namespace Node

/-- The variable. -/
def leaf (x : ℝ) : Node := ⟨.val x, id⟩

/-- A tensor that does not depend on the variable. -/
def const (x : ℝ) : Node := ⟨.val x, fun _ => .val 0⟩

/-- `a + b`. -/
noncomputable def add (a b : Node) : Node := ⟨a.val.add b.val, fun g => (a.back g).add (b.back g)⟩

/-- `c * a` for a Python number; `-a` is `-1 * a`. -/
noncomputable def scale (c : ℝ) (a : Node) : Node := ⟨mul (.val c) a.val, fun g => a.back (mul g (.val c))⟩

/-- `a + c` for a Python number. -/
noncomputable def shift (c : ℝ) (a : Node) : Node := ⟨a.val.add (.val c), a.back⟩

/-- `a * b`. -/
noncomputable def times (a b : Node) : Node :=
  ⟨mul a.val b.val, fun g => (a.back (mul g b.val)).add (b.back (mul g a.val))⟩

/-- `a / b`: the gradient of `b` is `-grad * ((a / b) / b)`. -/
noncomputable def over (a b : Node) : Node :=
  ⟨div a.val b.val, fun g => (a.back (div g b.val)).add (b.back (mul (mul (.val (-1)) g) (div (div a.val b.val) b.val)))⟩

/-- `a ** 2`. -/
noncomputable def sq (a : Node) : Node := ⟨mul a.val a.val, fun g => a.back (mul g (mul (.val 2) a.val))⟩

/-- `a.reciprocal()`: the backward pass is `-grad * (result * result)`. -/
noncomputable def recip (a : Node) : Node :=
  ⟨div (.val 1) a.val, fun g => a.back (mul (mul (.val (-1)) g) (mul (div (.val 1) a.val) (div (.val 1) a.val)))⟩

/-- `torch.log`: the backward pass is `grad / a`. -/
noncomputable def log (a : Node) : Node := ⟨logF a.val, fun g => a.back (div g a.val)⟩

/-- `torch.log1p`: the backward pass is `grad / (a + 1)`. -/
noncomputable def log1p (a : Node) : Node := ⟨logF (a.val.add (.val 1)), fun g => a.back (div g (a.val.add (.val 1)))⟩

/-- `torch.exp`: the backward pass is `grad * result`. -/
noncomputable def exp (a : Node) : Node := ⟨expF a.val, fun g => a.back (mul g (expF a.val))⟩

/-- `torch.expm1`, infinite when the exponential is greater than the greatest number `big`: the backward pass is
`grad * (result + 1)`. -/
noncomputable def expm1 (big : ℝ) (a : Node) : Node :=
  let e := match expF a.val with
    | .val y => if y ≤ big then F.val (y - 1) else .posInf
    | y => y
  ⟨e, fun g => a.back (mul g (e.add (.val 1)))⟩

/-- `abs`: the backward pass is `grad * sign(a)`. -/
noncomputable def abs (a : Node) : Node :=
  ⟨onVal (fun x => |x|) a.val, fun g => a.back (mul g (onVal (fun x => if 0 < x then 1 else if x < 0 then -1 else 0) a.val))⟩

/-- `torch.erf`, with the values `f`: the backward pass is `grad * 2 / sqrt(pi) * exp(-a ** 2)`. -/
noncomputable def erf (f : ℝ → ℝ) (a : Node) : Node :=
  ⟨onVal f a.val, fun g => a.back (mul g (onVal (fun x => 2 / √π * Real.exp (-x ^ 2)) a.val))⟩

/-- `torch.erfc`, with the values `f`. -/
noncomputable def erfc (f : ℝ → ℝ) (a : Node) : Node :=
  ⟨onVal f a.val, fun g => a.back (mul g (onVal (fun x => -(2 / √π * Real.exp (-x ^ 2))) a.val))⟩

/-- `a.to(torch.float)`, and the rounding of a result. -/
def cast (r : ℝ → ℝ) (a : Node) : Node := ⟨onVal r a.val, a.back⟩

open Classical in
/-- `torch.where(c, a, b)`: the branch that is not taken gets the gradient zero. -/
noncomputable def sel (c : Prop) (a b : Node) : Node :=
  ⟨if c then a.val else b.val, fun g => (a.back (if c then g else .val 0)).add (b.back (if c then .val 0 else g))⟩

/-- `torch.minimum(a, c)` for a constant `c`: equal arguments share the gradient. -/
noncomputable def minc (c : ℝ) (a : Node) : Node :=
  ⟨onVal (fun x => min x c) a.val, fun g => a.back (match a.val with
    | .val x => if x = c then div g (.val 2) else if x < c then g else .val 0
    | _ => .nan)⟩

/-- `tensor.backward()`: the gradient of the variable. -/
def grad (a : Node) : F := a.back (.val 1)

end Node

/-! ### The functions -/

/-- `ndtr`: `_ndtr.py:22-34`. -/
noncomputable def ndtr (r erf32 erfc32 : ℝ → ℝ) (x : Node) : Node :=
  let x := ((x.cast r).scale (r √0.5)).cast r
  let y := ((Node.erfc erfc32 x.abs).scale 0.5).cast r
  Node.sel (x.abs.val.Lt (.val (r √0.5)))
    (((((Node.erf erf32 x).scale 0.5).cast r).shift 0.5).cast r)
    (Node.sel ((F.val 0).Lt x.val) (((y.scale (-1)).shift 1).cast r) y)

/-- The state of the loop of `_log_ndtr_asymptotic_series`: `_log_ndtr.py:16-19`. -/
structure SeriesN where
  t2 : Node
  evenPower : Node
  doubleFac : ℝ
  multiplier : ℝ

/-- One iteration: `_log_ndtr.py:22-25`; a number divided by a tensor is `tensor.reciprocal() * number`. -/
noncomputable def SeriesN.step (x : Node) (s : SeriesN) (n : ℕ) : SeriesN where
  t2 := s.t2.add (s.evenPower.recip.scale (s.multiplier * s.doubleFac))
  evenPower := s.evenPower.times x.sq
  doubleFac := s.doubleFac * (2 * n - 1)
  multiplier := s.multiplier * (-1)

/-- `_log_ndtr_asymptotic_series`: `_log_ndtr.py:14-27`. -/
noncomputable def series (x : Node) : Node :=
  let t1 := ((x.sq.shift (Real.log (2 * π))).scale (-0.5)).add ((x.scale (-1)).log.scale (-1))
  let s := (List.range' 1 3).foldl (SeriesN.step x) ⟨Node.const 0, x.sq, 1, -1⟩
  t1.add s.t2.log1p

/-- `log_ndtr` with the thresholds of the type: `_log_ndtr.py:40-57`. -/
noncomputable def logNdtr (r erf32 erfc32 : ℝ → ℝ) (d : Dtype) (x : Node) : Except CdfError Node :=
  (thresholds d).map fun mn =>
    Node.sel ((F.val mn.2).Lt x.val) ((ndtr r erf32 erfc32 (x.scale (-1))).scale (-1)).log1p
      (Node.sel (¬ x.val.Lt (.val mn.1)) (ndtr r erf32 erfc32 x).log (series x))

/-- `(x - loc) / scale`: `_log_cdf.py:29`, `_log_survival_function.py:29`. -/
noncomputable def standardized (x loc scale : Node) : Node := (x.add (loc.scale (-1))).over scale

/-- `log_cdf` of a normal distribution: `_log_cdf.py:28-31`. -/
noncomputable def logCdf (r erf32 erfc32 : ℝ → ℝ) (d : Dtype) (x loc scale : Node) : Except CdfError Node :=
  logNdtr r erf32 erfc32 d (standardized x loc scale)

/-- `log_survival_function` of a normal distribution: `_log_survival_function.py:28-31`. -/
noncomputable def logSf (r erf32 erfc32 : ℝ → ℝ) (d : Dtype) (x loc scale : Node) : Except CdfError Node :=
  logNdtr r erf32 erfc32 d ((standardized x loc scale).scale (-1))

/-- `UniformNoise.log_prob` of a normal distribution: `_uniform_noise.py:93-114`. -/
noncomputable def logProb (r erf32 erfc32 : ℝ → ℝ) (d : Dtype) (v loc scale : Node) : Except CdfError Node := do
  let sfPos ← logSf r erf32 erfc32 d (v.shift 0.5) loc scale
  let sfNeg ← logSf r erf32 erfc32 d (v.shift (-0.5)) loc scale
  let cdfPos ← logCdf r erf32 erfc32 d (v.shift 0.5) loc scale
  let cdfNeg ← logCdf r erf32 erfc32 d (v.shift (-0.5)) loc scale
  let a := Node.sel (sfPos.val.Lt cdfPos.val) sfNeg cdfPos
  let b := Node.sel (sfPos.val.Lt cdfPos.val) sfPos cdfNeg
  return (((b.add (a.scale (-1))).exp.scale (-1)).log1p).add a

/-- `cdf` of a normal distribution, in torch's `distributions/normal.py` (library); the tensors are of the type of the arguments, so
that there is no rounding to single precision: `_uniform_noise.py:75-76`. -/
noncomputable def normCdf (x loc scale : Node) : Node :=
  (((Node.erf Verif.erf (((x.add (loc.scale (-1))).times scale.recip).scale (1 / √2))).shift 1).scale 0.5)

/-- `survival_function` of a normal distribution: `_survival_function.py:29-32`. -/
noncomputable def survival (r erf32 erfc32 : ℝ → ℝ) (x loc scale : Node) : Node :=
  ndtr r erf32 erfc32 ((standardized x loc scale).scale (-1))

/-- `UniformNoise.prob` of a normal distribution: `_uniform_noise.py:122-133`. -/
noncomputable def probNode (r erf32 erfc32 : ℝ → ℝ) (v loc scale : Node) : Node :=
  let sfPos := survival r erf32 erfc32 (v.shift 0.5) loc scale
  let sfNeg := survival r erf32 erfc32 (v.shift (-0.5)) loc scale
  let cdfPos := normCdf (v.shift 0.5) loc scale
  let cdfNeg := normCdf (v.shift (-0.5)) loc scale
  Node.sel (sfPos.val.Lt cdfPos.val) (sfNeg.add (sfPos.scale (-1))) (cdfPos.add (cdfNeg.scale (-1)))

/-- `log_expm1`: `_log_expm1.py:29-33`. -/
noncomputable def logExpm1 (big : ℝ) (x : Node) : Node :=
  Node.sel (x.val.Lt (.val 15)) ((x.minc 15).expm1 big).log x

end Verif.Functional.Gradients
