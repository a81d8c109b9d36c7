import Mathlib.Data.List.Basic
import Mathlib.Data.List.Dedup
import Mathlib.Algebra.BigOperators.Group.List.Basic

/-!
Model of `neuralcompression/functional/_count_flops.py`.

A traced forward function is the list of its operator calls. `FlopCountAnalysis` of fvcore (a library) is
modelled from its documentation: a table of handlers, to which `set_op_handle` adds (a handler `None` removes
the operator from the table and ignores it), a set of ignored operators, and an analysis that walks over the
trace: operators with a handler are counted by it, operators in the ignored set are skipped, all others are
reported as unsupported. Shortened operator names in the break-down (`aten::add` to `add`) are not
modelled.
-/

namespace Verif.Functional.Flops

/-- One operator call in the trace: its name, and its inputs and outputs, of which only the numbers of
elements matter here. -/
structure Op where
  name : String
  inputs : List ℕ
  outputs : List ℕ
  deriving DecidableEq

/-- A flop counting function. -/
abbrev Handle := List ℕ → List ℕ → ℕ

/-- A Python dictionary from operator names. -/
abbrev Dict (α : Type) := List (String × α)

/-- Dictionary lookup. -/
def get {α : Type} (d : Dict α) (k : String) : Option α := (d.find? fun p => p.1 == k).map (·.2)

/-- `d[k] = v`. -/
def set {α : Type} (d : Dict α) (k : String) (v : α) : Dict α := (k, v) :: d.filter fun p => p.1 != k

/-- `d.update(e)`. -/
def update {α : Type} (d e : Dict α) : Dict α := e.foldl (fun d p => set d p.1 p.2) d

/-- `generic_activation_jit(name)`: one flop per output element. -/
def singleFlop : Handle := fun _ outputs => outputs.headD 0

/-- `_SINGLE_FLOP_OPS_TO_ADD`: `_count_flops.py:16-28`. -/
def opsToAdd : List String :=
  ["aten::abs", "aten::add", "aten::div", "aten::mul", "aten::neg", "aten::rsub", "aten::sign", "aten::sub"]

/-- `_SINGLE_FLOP_ESTIMATES_TO_ADD`: `_count_flops.py:43-60`. -/
def estimatesToAdd : List String :=
  ["aten::erfc", "aten::exp", "aten::log", "aten::log10", "aten::log2", "aten::pow", "aten::reciprocal",
    "aten::rsqrt", "aten::sigmoid", "aten::softplus", "aten::sqrt", "aten::tanh", "aten::uniform"]

/-- A dictionary with the given operators and their in-place versions: `_count_flops.py:65-75`. -/
def counters (names : List String) : Dict (Option Handle) :=
  (names ++ names.map (· ++ "_")).map fun n => (n, some singleFlop)

/-- `_OPS_TO_IGNORE`: `_count_flops.py:80`. -/
def opsToIgnore : List String := ["aten::empty_like", "aten::numel"]

/-- The two module level tables that the function reads: `_SINGLE_FLOP_OP_COUNTERS` and
`_SINGLE_FLOP_ESTIMATE_COUNTERS`. They are mutable, so they are part of the state. -/
structure Globals where
  opCounters : Dict (Option Handle)
  estimateCounters : Dict (Option Handle)

/-- The tables when the module has been imported. -/
def initGlobals : Globals := ⟨counters opsToAdd, counters estimatesToAdd⟩

/-- An analysis object of fvcore. -/
structure Counter where
  handles : Dict Handle
  ignored : List String

/-- `set_op_handle` of fvcore for one operator. -/
def Counter.setHandle (c : Counter) (name : String) : Option Handle → Counter
  | some h => { c with handles := set c.handles name h }
  | none => ⟨c.handles.filter fun p => p.1 != name, name :: c.ignored⟩

/-- `set_op_handle(**handles)` of fvcore. -/
def Counter.setHandles (c : Counter) (d : Dict (Option Handle)) : Counter :=
  d.foldl (fun c p => c.setHandle p.1 p.2) c

/-- What the analysis does with an operator: count it, skip it, or report it. -/
inductive Verdict
  | counted (n : ℕ)
  | skipped
  | unsupported
  deriving DecidableEq

/-- The analysis of one operator call. -/
def Counter.verdict (c : Counter) (op : Op) : Verdict :=
  match get c.handles op.name with
  | some h => .counted (h op.inputs op.outputs)
  | none => if op.name ∈ c.ignored then .skipped else .unsupported

/-- The flops of a verdict. -/
def Verdict.flops : Verdict → ℕ
  | .counted n => n
  | _ => 0

/-- `counter.total()`. -/
def Counter.total (c : Counter) (trace : List Op) : ℕ := (trace.map fun op => (c.verdict op).flops).sum

/-- `counter.by_operator()`: the counted operators, each with the sum over its calls. -/
def Counter.byOperator (c : Counter) (trace : List Op) : Dict ℕ :=
  let counted := trace.filter fun op => (get c.handles op.name).isSome
  (counted.map (·.name)).dedup.map fun n =>
    (n, ((trace.filter fun op => op.name == n).map fun op => (c.verdict op).flops).sum)

/-- `counter.unsupported_ops()`: the unsupported operators with their number of calls. -/
def Counter.unsupportedOps (c : Counter) (trace : List Op) : Dict ℕ :=
  let bad := trace.filter fun op => c.verdict op = .unsupported
  (bad.map (·.name)).dedup.map fun n => (n, (trace.filter fun op => op.name == n).length)

/-- `count_flops`: `_count_flops.py:83-162`, with fvcore's own tables (`base`) as an argument and the module
level tables as state. `copy` makes a new dictionary, so the `update`s do not reach the module level
table. -/
def countFlops (g : Globals) (base : Counter) (trace : List Op) (overrides : Option (Dict (Option Handle)) := none)
    (useEstimates : Bool := false) : (ℕ × Dict ℕ × Dict ℕ) × Globals :=
  let toAdd := g.opCounters
  let toAdd := if useEstimates then update toAdd g.estimateCounters else toAdd
  let toAdd := match overrides with
    | some o => update toAdd o
    | none => toAdd
  let counter := base.setHandles toAdd
  let counter := { counter with ignored := opsToIgnore ++ counter.ignored }
  ((counter.total trace, counter.byOperator trace, counter.unsupportedOps trace), g)

end Verif.Functional.Flops
