import Mathlib.Algebra.Order.Floor.Ring
import Mathlib.Algebra.Order.Archimedean.Real.Basic
import Mathlib.Algebra.BigOperators.Group.List.Basic

/-!
Model of the entropy layer `/repo/neuralcompression/layers/_continuous_entropy.py`: its constructor, the
construction of its tables, its buffers and `quantize`.

Simplifications: floats are real numbers. Priors have scalar events and batch shapes of rank at most one (for
higher ranks `pmf[:pmf_size]` slices with a tensor of several elements; not modelled). What torch computes from
the prior (tails, offset, probability of a point) and `pmf_to_quantized_cdf` of compressai are parameters.
-/

namespace Verif.Layers.Entropy

/-- The exceptions. -/
inductive Err | value | index | type | runtime
deriving DecidableEq

/-- An integer tensor: its shape and its entries in row-major order. -/
structure IntTensor where
  shape : List ℕ
  data : List ℤ
deriving DecidableEq

/-- `torch.zeros`. -/
def zeros (shape : List ℕ) : IntTensor := ⟨shape, List.replicate shape.prod 0⟩

/-- A prior distribution. `noisy` says that it is a `UniformNoise`, whose `batch_shape` is the event shape of its
base distribution, here `[]` (`_uniform_noise.py:45-49`). `batch` is the batch shape of the (base) distribution:
`none` for a scalar, `some n` for `[n]`. For the `k`-th distribution, `offset`, `lower` and `upper` are
`quantization_offset` and the two tails, and `mass` is `prob` (or `exp` of `log_prob`) at a point. -/
structure Prior where
  noisy : Bool
  batch : Option ℕ
  offset : ℕ → ℝ
  lower : ℕ → ℝ
  upper : ℕ → ℝ
  mass : ℕ → ℝ → ℝ

/-- `prior.batch_shape`: `_continuous_entropy.py:111`. -/
def Prior.batchShape (p : Prior) : List ℕ :=
  if p.noisy then []
  else match p.batch with
    | none => []
    | some n => [n]

/-- `minimum`: `_continuous_entropy.py:317-319`. -/
noncomputable def Prior.minimum (p : Prior) (k : ℕ) : ℤ := max ⌊p.lower k - p.offset k⌋ 0

/-- `maximum`: `_continuous_entropy.py:321-323`. -/
noncomputable def Prior.maximum (p : Prior) (k : ℕ) : ℤ := max ⌈p.upper k - p.offset k⌉ 0

/-- Conversion of a float to an integer: rounding towards zero. -/
noncomputable def truncate (x : ℝ) : ℤ := if 0 ≤ x then ⌊x⌋ else ⌈x⌉

/-- `pmf_start`: `_continuous_entropy.py:325-326`. -/
noncomputable def Prior.start (p : Prior) (k : ℕ) : ℤ := truncate ((p.minimum k : ℝ) + p.offset k)

/-- `pmf_sizes`: `_continuous_entropy.py:328`. -/
noncomputable def Prior.size (p : Prior) (k : ℕ) : ℕ := (p.maximum k - p.minimum k + 1).toNat

/-- `maximum_pmf_size` of `n` distributions: `_continuous_entropy.py:330-331`. -/
noncomputable def Prior.maxSize (p : Prior) (n : ℕ) : ℕ := ((List.range n).map p.size).foldr max 0

/-- `pmfs[s][k]`: the mass of the `s`-th sample of the `k`-th distribution, `_continuous_entropy.py:333-340`. -/
noncomputable def Prior.pmfs (p : Prior) (s k : ℕ) : ℝ := p.mass k ((s : ℝ) + (p.start k : ℝ))

/-- One pass of the loop for the pair of `pmf` and `pmf_size`: `_continuous_entropy.py:357-369`. -/
noncomputable def rowOf (q : List ℝ → List ℤ) (pmf : List ℝ) (size : ℕ) : List ℤ :=
  let pmf := pmf.take size
  let overflow := max (1 - pmf.sum) 0
  q (pmf ++ [overflow])

/-- A row of the table: the quantised function, and zeros up to the width of the table
(`_continuous_entropy.py:350-354`, `371`). -/
def padTo (width : ℕ) (row : List ℤ) : List ℤ := row ++ List.replicate (width - row.length) 0

/-- The three tables. -/
structure Tables where
  cdfs : IntTensor
  sizes : IntTensor
  offsets : IntTensor

/-- The rows of `cdfs` for `n` distributions: the loop `_continuous_entropy.py:356-371`. `zip` pairs the first
axis of `pmfs`, the samples, with the sizes of the distributions; rows it does not reach stay zero. -/
noncomputable def rows (q : List ℝ → List ℤ) (p : Prior) (n : ℕ) : List (List ℤ) :=
  let m := p.maxSize n
  (List.range n).map fun r =>
    if r < m then padTo (m + 2) (rowOf q ((List.range n).map fun k => p.pmfs r k) (p.size r))
    else List.replicate (m + 2) 0

/-- `_update`: `_continuous_entropy.py:304-373`. For a noisy prior with a batch, the tensors of shape `[n]` cannot
be broadcast to `context_shape = []`; for scalars, and for one distribution (which `squeeze` makes a scalar),
`len` of a tensor without dimensions raises; `torch.max` of no elements raises. -/
noncomputable def update (q : List ℝ → List ℤ) (p : Prior) : Except Err Tables :=
  match p.batch with
  | none => .error .type
  | some n =>
    if n = 0 then .error .runtime
    else if p.noisy then .error .runtime
    else if n = 1 then .error .type
    else .ok {
      cdfs := ⟨[n, p.maxSize n + 2], (rows q p n).flatten⟩
      sizes := ⟨[n], (List.range n).map fun k => (p.size k : ℤ) + 2⟩
      offsets := ⟨[n], (List.range n).map p.minimum⟩ }

/-- The arguments of the constructor that decide what happens. `priorDtype` says whether it is given. -/
structure Args where
  compressible : Bool := false
  stateless : Bool := false
  prior : Option Prior := none
  priorShape : Option (List ℕ) := none
  priorDtype : Bool := false
  cdfs : Option IntTensor := none
  cdfSizes : Option IntTensor := none
  cdfOffsets : Option IntTensor := none
  maximumCdfSize : Option ℕ := none

/-- A constructed layer: its shape of the prior and its three buffers. -/
structure Layer where
  compressible : Bool
  stateless : Bool
  priorShape : List ℕ
  cdfs : Option IntTensor
  cdfSizes : Option IntTensor
  cdfOffsets : Option IntTensor

/-- The truth value of `x is None` as a number. -/
def isNone {α : Type} : Option α → ℕ
  | none => 1
  | some _ => 0

/-- The shape of the prior: `_continuous_entropy.py:100-112`. -/
def contextShape (a : Args) : Except Err (List ℕ) :=
  match a.prior with
  | none =>
    match a.priorShape, a.priorDtype with
    | some s, true => .ok s
    | _, _ => .error .value
  | some p => .ok p.batchShape

/-- The branch `_continuous_entropy.py:134-152`: empty tables of the given size. `zeros[0, :]` of a tensor with no
rows raises. -/
def emptyTables (a : Args) (shape : List ℕ) (maximum : ℕ) : Except Err Layer :=
  if a.stateless then .error .value
  else if shape.length = 0 then .error .index
  else .ok ⟨a.compressible, a.stateless, shape, some (zeros [shape.length, maximum]), some (zeros [maximum]),
    some (zeros [maximum])⟩

/-- `ContinuousEntropy.__init__`: `_continuous_entropy.py:74-172`. -/
noncomputable def init (q : List ℝ → List ℤ) (a : Args) : Except Err Layer :=
  match contextShape a with
  | .error e => .error e
  | .ok shape =>
    if a.compressible then
      if ¬ (isNone a.cdfs = isNone a.cdfSizes ∧ isNone a.cdfSizes = isNone a.cdfOffsets) then .error .value
      else if isNone a.prior + isNone a.maximumCdfSize + isNone a.cdfs ≠ 2 then .error .value
      else
        match a.prior with
        | some p => (update q p).map fun t =>
            ⟨a.compressible, a.stateless, shape, some t.cdfs, some t.sizes, some t.offsets⟩
        | none =>
          match a.maximumCdfSize with
          | some maximum => emptyTables a shape maximum
          | none => .ok ⟨a.compressible, a.stateless, shape, a.cdfs, a.cdfSizes, a.cdfOffsets⟩
    else if ¬ (isNone a.cdfs = 1 ∧ isNone a.cdfOffsets = 1 ∧ isNone a.cdfSizes = 1 ∧
        isNone a.maximumCdfSize = 1) then .error .value
    else .ok ⟨a.compressible, a.stateless, shape, a.cdfs, a.cdfSizes, a.cdfOffsets⟩

/-- The access to the tables through the properties: `_continuous_entropy.py:174-190`, `424-429`. -/
def Layer.getCdfs (l : Layer) : Except Err (Option IntTensor) :=
  if l.compressible then .ok l.cdfs else .error .runtime

/-- Copying a saved buffer into a buffer in `Module.load_state_dict`: the shapes must agree, and neither may be
missing. -/
def loadBuffer : Option IntTensor → Option IntTensor → Except Err (Option IntTensor)
  | some old, some new => if old.shape = new.shape then .ok (some new) else .error .runtime
  | none, none => .ok none
  | _, _ => .error .runtime

/-- `load_state_dict` of the state of layer `saved` into layer `l`. -/
def load (l saved : Layer) : Except Err Layer := do
  let c ← loadBuffer l.cdfs saved.cdfs
  let s ← loadBuffer l.cdfSizes saved.cdfSizes
  let o ← loadBuffer l.cdfOffsets saved.cdfOffsets
  return { l with
    cdfs := c
    cdfSizes := s
    cdfOffsets := o }

/-- The element types of the tensors given to `quantize`. -/
inductive Elt | int32 | int64 | float32 | float64
deriving DecidableEq

/-- Torch's type promotion between two tensors of these types. -/
def Elt.promote : Elt → Elt → Elt
  | .float64, _ => .float64
  | _, .float64 => .float64
  | .float32, _ => .float32
  | _, .float32 => .float32
  | .int64, _ => .int64
  | _, .int64 => .int64
  | .int32, .int32 => .int32

/-- `quantize` of one element: `_continuous_entropy.py:268-302`. `torch.round` keeps the type;
`torch.IntTensor(t)` of a tensor `t` raises `TypeError` unless `t` already has type `int32`. `round` is the
rounding of torch. -/
def quantize (round : ℝ → ℤ) (elt : Elt) (x : ℝ) (offset : Option (Elt × ℝ)) : Except Err ℤ :=
  let (e, y) := match offset with
    | none => (elt, x)
    | some (eo, o) => (elt.promote eo, x - o)
  if e = .int32 then .ok (round y) else .error .type

end Verif.Layers.Entropy
