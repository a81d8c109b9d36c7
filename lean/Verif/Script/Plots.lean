import Mathlib.Data.Real.Sqrt
import Mathlib.Algebra.BigOperators.Group.List.Basic

/-!
Model of the helpers of the diffusion scripts that share work among processes, send entries to Weights & Biases and plot:
`/repo/projects/bits_back_diffusion/bits_back_diffusion/script_util.py:28-101, 382-432`.

Floats are real numbers. Plotly and Weights & Biases are the lists of traces and entries that they are given.
-/

namespace Verif.Script.Plots

/-- The exceptions. -/
inductive Err | value | runtime
deriving DecidableEq, Repr

/-- `divide_by_n_proc` on `w` processes; `divmod` rounds down: `script_util.py:28-42`. -/
def divideByNProc (x : ℤ) (w : ℕ) : Except Err ℤ :=
  let quotient := Int.fdiv x w
  let remainder := Int.fmod x w
  if remainder ≠ 0 then .error .value else .ok quotient

/-! ### Entries of the log -/

/-- `k.replace("_", "/")`: `script_util.py:89`. -/
def rename (k : List Char) : List Char := k.map fun c => if c = '_' then '/' else c

/-- Entries of a dictionary in order of insertion; a key that is there keeps its place. -/
def insert {V : Type} (d : List (List Char × V)) (k : List Char) (v : V) : List (List Char × V) :=
  if d.any (fun e => decide (e.1 = k)) then d.map fun e => if e.1 = k then (k, v) else e else d ++ [(k, v)]

/-- The logger: the entries sent so far, and whether its run is available: `script_util.py:66-80`. -/
structure Logger (V : Type) where
  sent : List (List (List Char × V)) := []
  run : Bool := true

/-- `writekvs`: `script_util.py:82-93`. -/
def writekvs {V : Type} (l : Logger V) (kvs : List (List Char × V)) : Except Err (Logger V) :=
  let kvs' := kvs.foldl (fun d e => insert d (rename e.1) e.2) []
  if l.run then .ok { l with sent := l.sent ++ [kvs'] } else .error .runtime

/-- `close`: `script_util.py:95-101`. -/
def close {V : Type} (l : Logger V) : Logger V := if l.run then { l with run := false } else l

/-! ### Plots -/

/-- A curve or the outline of an area. -/
structure Trace where
  name : String
  x : List ℕ
  y : List ℝ
  filled : Bool

/-- `mean` of a column. -/
noncomputable def mean (c : List ℝ) : ℝ := c.sum / c.length

/-- `std` of a column: without Bessel's correction. -/
noncomputable def stdd (c : List ℝ) : ℝ := Real.sqrt (mean (c.map fun v => (v - mean c) ^ 2))

/-- The columns of an array with rows of length `T`. -/
def columns (T : ℕ) (data : List (List ℝ)) : List (List ℝ) := (List.range T).map fun t => data.map fun r => r.getD t 0

/-- `max(axis=0)`, `ValueError` without rows. -/
noncomputable def maxima (T : ℕ) (data : List (List ℝ)) : Except Err (List ℝ) :=
  (columns T data).mapM fun c => match c.max? with
    | none => .error .value
    | some m => .ok m

/-- `min(axis=0)`. -/
noncomputable def minima (T : ℕ) (data : List (List ℝ)) : Except Err (List ℝ) :=
  (columns T data).mapM fun c => match c.min? with
    | none => .error .value
    | some m => .ok m

/-- `plot_evolution` for an array of one dimension: `script_util.py:394-406`. -/
def plot1 (data : List ℝ) : List Trace := [⟨"mean", List.range data.length, data, false⟩]

/-- `plot_evolution` for an array with rows of length `T`: `script_util.py:394-428`. -/
noncomputable def plot2 (T : ℕ) (data : List (List ℝ)) : Except Err (List Trace) := do
  let m := (columns T data).map mean
  let x := List.range m.length
  let s := (columns T data).map stdd
  let xRound := x ++ x.reverse
  let hi ← maxima T data
  let lo ← minima T data
  pure [⟨"mean", x, m, false⟩,
    ⟨"stdd", xRound, List.zipWith (· + ·) m s ++ (List.zipWith (· - ·) m s).reverse, true⟩,
    ⟨"range", xRound, hi ++ lo.reverse, true⟩]

end Verif.Script.Plots
