import Verif.Functional.NormalCdf

/-!
Model of `neuralcompression/distributions/_uniform_noise.py` (`NoisyNormal` of `_noisy_normal.py` is the case
of a normal base distribution).

Numbers are real numbers with the infinities and the not-a-number of floating point arithmetic; there is no
rounding.
-/

namespace Verif.Layers

open Real Verif.Functional

/-- A floating point result. -/
inductive F
  | val (x : ℝ)
  | posInf
  | negInf
  | nan

namespace F

/-- `torch.log`. -/
noncomputable def log (x : ℝ) : F := if 0 < x then .val (Real.log x) else if x = 0 then .negInf else .nan

/-- `-`. -/
noncomputable def sub : F → F → F
  | val x, val y => .val (x - y)
  | val _, posInf => .negInf
  | val _, negInf => .posInf
  | posInf, val _ => .posInf
  | posInf, negInf => .posInf
  | negInf, val _ => .negInf
  | negInf, posInf => .negInf
  | _, _ => .nan

/-- `+`. -/
noncomputable def add : F → F → F
  | val x, val y => .val (x + y)
  | val _, posInf => .posInf
  | val _, negInf => .negInf
  | posInf, val _ => .posInf
  | posInf, posInf => .posInf
  | negInf, val _ => .negInf
  | negInf, negInf => .negInf
  | _, _ => .nan

/-- `torch.log1p(-torch.exp(x))`. -/
noncomputable def log1mexp : F → F
  | val x => log (1 - exp x)
  | posInf => .nan
  | negInf => .val 0
  | nan => .nan

/-- `<`; comparisons with not-a-number are false. -/
def Lt : F → F → Prop
  | val x, val y => x < y
  | val _, posInf => True
  | negInf, val _ => True
  | negInf, posInf => True
  | _, _ => False

end F

/-- `log_cdf` of the base distribution, with infinities (`_uniform_noise.py:90-91`, `_log_cdf.py:13-36`). The
normal distribution function is positive, so its logarithm is a number. -/
noncomputable def logCdfF (d : Dtype) (x : ℝ) : Dist → Except CdfError F
  | .normal loc scale => (logCdf d x (.normal loc scale)).map F.val
  | .uniform _ _ => .ok (F.log x)
  | .other cdf => .ok (F.log (cdf x))

/-- `log_survival_function` of the base distribution, with infinities (`_uniform_noise.py:116-117`,
`_log_survival_function.py:13-33`). -/
noncomputable def logSfF (d : Dtype) (x : ℝ) : Dist → Except CdfError F
  | .normal loc scale => (logSurvivalFunction d x (.normal loc scale)).map F.val
  | .uniform low high => .ok (F.log (1 + (Dist.uniform low high).cdf (-x)))
  | .other cdf => .ok (F.log (1 + cdf (-x)))

/-- `UniformNoise.prob`: `_uniform_noise.py:122-133`. -/
noncomputable def prob (base : Dist) (v : ℝ) : ℝ :=
  let sfPos := survivalFunction (v + 0.5) base
  let sfNeg := survivalFunction (v - 0.5) base
  let cdfPos := base.cdf (v + 0.5)
  let cdfNeg := base.cdf (v - 0.5)
  if sfPos < cdfPos then sfNeg - sfPos else cdfPos - cdfNeg

open Classical in
/-- `UniformNoise.log_prob`: `_uniform_noise.py:93-114`. -/
noncomputable def logProb (dt : Dtype) (base : Dist) (v : ℝ) : Except CdfError F := do
  let sfPos ← logSfF dt (v + 0.5) base
  let sfNeg ← logSfF dt (v - 0.5) base
  let cdfPos ← logCdfF dt (v + 0.5) base
  let cdfNeg ← logCdfF dt (v - 0.5) base
  let a := if sfPos.Lt cdfPos then sfNeg else cdfPos
  let b := if sfPos.Lt cdfPos then sfPos else cdfNeg
  return (F.log1mexp (b.sub a)).add a

/-! ### Shapes and samples -/

/-- A torch distribution, as far as shapes go. -/
structure Shapes where
  batch : List ℕ
  event : List ℕ
deriving DecidableEq

/-- The constructor of `UniformNoise`: `_uniform_noise.py:45-49`. `Distribution.__init__` takes the batch shape
first. -/
def uniformNoiseShapes (base : Shapes) : Shapes := ⟨base.event, base.batch⟩

/-- Torch's broadcasting of two shapes, on the reversed lists of sizes. -/
def broadcastRev : List ℕ → List ℕ → Option (List ℕ)
  | [], b => some b
  | a, [] => some a
  | x :: a, y :: b =>
    if x = y ∨ y = 1 then (broadcastRev a b).map (x :: ·)
    else if x = 1 then (broadcastRev a b).map (y :: ·)
    else none

/-- Torch's broadcasting of two shapes. -/
def broadcast (a b : List ℕ) : Option (List ℕ) := (broadcastRev a.reverse b.reverse).map List.reverse

/-- The element of a tensor of shape `shape` that is seen at index `idx` of the broadcast result, on the
reversed lists. -/
def sourceRev : List ℕ → List ℕ → List ℕ
  | [], _ => []
  | _ :: _, [] => []
  | n :: shape, i :: idx => (if n = 1 then 0 else i) :: sourceRev shape idx

/-- The element of a tensor of shape `shape` that is seen at index `idx` of the broadcast result. -/
def source (shape idx : List ℕ) : List ℕ := (sourceRev shape.reverse idx.reverse).reverse

/-- `UniformNoise.rsample` for a base distribution with empty event shape: `_uniform_noise.py:135-139`. The base
sample has shape `sample_shape + batch_shape`; the noise is a sample of the scalar `Uniform(-0.5, 0.5)` and so
has shape `sample_shape`. `base` and `noise` are the random draws by index. -/
def rsample (batch sampleShape : List ℕ) (base noise : List ℕ → ℝ) : Option (List ℕ × (List ℕ → ℝ)) :=
  (broadcast (sampleShape ++ batch) sampleShape).map fun shape =>
    (shape, fun idx => base (source (sampleShape ++ batch) idx) + noise (source sampleShape idx))

end Verif.Layers
