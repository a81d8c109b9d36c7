import Verif.Layers.Entropy

/-!
Model of what a constructed entropy layer answers: the properties and the checks of
`/repo/neuralcompression/layers/_continuous_entropy.py`.

Simplifications: as in `Verif.Layers.Entropy`; the buffers do not change between the calls (loading a state is C70).
-/

namespace Verif.Layers.Entropy.Queries

open Verif.Layers.Entropy

/-- Types of floating point numbers. -/
inductive Dtype | float16 | float32 | float64
deriving DecidableEq

/-- All arguments of the constructor: `_continuous_entropy.py:74-87`.  `dtype` is `prior_dtype` (if it is given, see
`Args.priorDtype`), `priorElt` the type of the parameters of the prior (if there is one). -/
structure FullArgs where
  base : Args
  codingRank : Option ℕ := none
  tailMass : ℝ
  precision : ℕ := 12
  dtype : Dtype := .float32
  priorElt : Dtype := .float32

/-- The attribute `_prior`: it is assigned in one branch of the constructor only. -/
inductive Held
  | absent
  | deleted
  | prior (p : Prior)

/-- The exceptions that reading a property can raise. -/
inductive QueryErr | runtime | attribute | value | notImplemented
deriving DecidableEq

/-- A layer with everything that can be asked. -/
structure Object where
  layer : Layer
  held : Held
  codingRank : Option ℕ
  tailMass : ℝ
  precision : ℕ
  dtype : Dtype
  maximumCdfSize : Option ℕ

/-- The constructor: `_continuous_entropy.py:88-172`; the prior is kept in the branch `_continuous_entropy.py:130-133`
only. -/
noncomputable def construct (q : List ℝ → List ℤ) (a : FullArgs) : Except Err Object :=
  (init q a.base).map fun layer =>
    { layer := layer
      held := match a.base.compressible, a.base.prior with
        | true, some p => .prior p
        | _, _ => .absent
      codingRank := a.codingRank
      tailMass := a.tailMass
      precision := a.precision
      dtype := match a.base.prior with
        | none => a.dtype
        | some _ => .float32
      maximumCdfSize := a.base.maximumCdfSize }

/-- The property `prior`: `_continuous_entropy.py:216-226`.  An attribute that was never assigned raises
`AttributeError`, which `torch.nn.Module` turns into one about `prior`. -/
def getPrior (o : Object) : Except QueryErr Prior :=
  match o.held with
  | .absent => .error .attribute
  | .deleted => .error .runtime
  | .prior p => .ok p

/-- `del layer.prior`: `_continuous_entropy.py:228-230`. -/
def deletePrior (o : Object) : Object := { o with held := .deleted }

/-- `_validate_compress`: `_continuous_entropy.py:426-431`. -/
def validateCompress (o : Object) : Except QueryErr Unit :=
  if o.layer.compressible then .ok () else .error .runtime

/-- The property `cdfs`: `_continuous_entropy.py:186-190`. -/
def getCdfs (o : Object) : Except QueryErr (Option IntTensor) :=
  match validateCompress o with
  | .error e => .error e
  | .ok () => .ok o.layer.cdfs

/-- The property `cdf_sizes`: `_continuous_entropy.py:180-184`. -/
def getSizes (o : Object) : Except QueryErr (Option IntTensor) :=
  match validateCompress o with
  | .error e => .error e
  | .ok () => .ok o.layer.cdfSizes

/-- The property `cdf_offsets`: `_continuous_entropy.py:174-178`. -/
def getOffsets (o : Object) : Except QueryErr (Option IntTensor) :=
  match validateCompress o with
  | .error e => .error e
  | .ok () => .ok o.layer.cdfOffsets

/-- The property `context_shape`: `_continuous_entropy.py:205-214`. -/
def contextShapeOf (o : Object) : List ℕ := o.layer.priorShape

/-- The property `prior_shape`: `_continuous_entropy.py:237-242`. -/
def priorShapeOf (o : Object) : List ℕ := o.layer.priorShape

/-- The property `prior_dtype`: `_continuous_entropy.py:232-235`. -/
def priorDtypeOf (o : Object) : Dtype := o.dtype

/-- `_validate_cdf_offsets` and `_validate_cdf_sizes`: `_continuous_entropy.py:375-407`.  A buffer that is `None` has no
`numel`, which raises `AttributeError`. -/
def validateVector (t : Option IntTensor) : Except QueryErr Unit :=
  match t with
  | none => .error .attribute
  | some t =>
    if t.shape.prod = 0 then .error .value
    else if t.shape.length ≠ 1 then .error .value
    else .ok ()

/-- `_validate_cdfs`: `_continuous_entropy.py:409-424`. -/
def validateTable (t : Option IntTensor) : Except QueryErr Unit :=
  match t with
  | none => .error .attribute
  | some t =>
    if t.shape.prod = 0 then .error .value
    else if t.shape.length ≠ 2 then .error .value
    else .ok ()

/-- `_validate_range_coding_table`: `_continuous_entropy.py:433-436`. -/
def validate (o : Object) : Except QueryErr Unit :=
  match validateVector o.layer.cdfOffsets with
  | .error e => .error e
  | .ok () =>
    match validateVector o.layer.cdfSizes with
    | .error e => .error e
    | .ok () => validateTable o.layer.cdfs

/-- `compress` and `decompress` of the layer itself: `_continuous_entropy.py:260-266`. -/
def compress (_o : Object) : Except QueryErr Unit := .error .notImplemented

end Verif.Layers.Entropy.Queries
