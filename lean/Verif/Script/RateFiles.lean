import Mathlib.Data.Real.Sqrt
import Mathlib.Algebra.BigOperators.Group.Finset.Basic
import Mathlib.Algebra.Order.BigOperators.Ring.Finset

/-!
# The files with the rates of the diffusion steps

Models what `projects/bits_back_diffusion/encode.py` does for a codec with `track`: the rates it collects per batch and
the files `rates-push.npz` and `rates-pop.npz`, over all histories of starts and crashes in one directory.  The message and
its checkpoints are modelled in `Verif.Script.Resume`; here a checkpoint is the number of batches in it, it is never torn,
and it restores the byte counters (C21).
-/

namespace Verif.Script.RateFiles

open Finset

/-- encode.py:110: the keys of `rate_effective`. -/
inductive Name where
  | push | pop
  deriving DecidableEq

/-- A run: `total` batches are to be encoded; `save k` says that a checkpoint follows batch `k` (encode.py:142-145; the last
batch is always followed by one); batch `i` (from 0) pushes or pops `bytes name i t` bytes in diffusion step `t`; `size` is
the number of values in a batch. -/
structure Cfg where
  total : ℕ
  save : ℕ → Bool
  bytes : Name → ℕ → ℕ → ℤ
  size : ℕ

/-- codec.py:616-644, 646-661: `statistics().rate_effective_push` (`_pop`) when `k` batches are encoded.  The counters of
the codec are never reset, so this is the rate of all batches so far. -/
noncomputable def Cfg.rate (c : Cfg) (name : Name) (k t : ℕ) : ℝ :=
  8 * (∑ i ∈ range k, (c.bytes name i t : ℝ)) / (k * c.size)

/-- What is in a file: functions of the diffusion step. -/
structure File where
  mean : ℕ → ℝ
  stdd : ℕ → ℝ
  min : ℕ → ℝ
  max : ℕ → ℝ

/-- The mean of a list. -/
noncomputable def listMean (xs : List ℝ) : ℝ := xs.sum / xs.length

/-- encode.py:155-162: the file made of the collected rows.  The rows are never empty there. -/
noncomputable def summary (rows : List (ℕ → ℝ)) : File where
  mean t := listMean (rows.map (· t))
  stdd t := Real.sqrt (listMean (rows.map fun r => (r t - listMean (rows.map (· t))) ^ 2))
  min t := ((rows.map (· t)).min?).getD 0
  max t := ((rows.map (· t)).max?).getD 0

/-- The directory: the newest encode checkpoint (0 for none) and the files with the rates. -/
structure Dir where
  ckpt : ℕ := 0
  files : Name → Option File := fun _ => none

/-- The process. -/
inductive Proc where
  /-- not running -/
  | idle
  /-- encode.py:112, with `k` batches encoded and the collected rows -/
  | encoding (k : ℕ) (rows : Name → List (ℕ → ℝ))
  /-- encode.py:152, between the two files -/
  | writing (rows : Name → List (ℕ → ℝ))
  /-- encode.py:89 -/
  | done

structure World where
  dir : Dir := {}
  proc : Proc := .idle

/-- What the process does and what happens to it. -/
inductive Step (c : Cfg) : World → World → Prop where
  /-- encode.py:53-68, 110-111: samples are missing -/
  | startEncode (d : Dir) (p : Proc) (hp : p = .idle ∨ p = .done) (h : d.ckpt < c.total) :
      Step c ⟨d, p⟩ ⟨d, .encoding d.ckpt fun _ => []⟩
  /-- encode.py:58-61, 89: all samples are encoded -/
  | startDone (d : Dir) (p : Proc) (hp : p = .idle ∨ p = .done) (h : ¬ d.ckpt < c.total) :
      Step c ⟨d, p⟩ ⟨d, .done⟩
  /-- encode.py:112-147 -/
  | batch (d : Dir) (k : ℕ) (rows : Name → List (ℕ → ℝ)) (h : k < c.total) :
      Step c ⟨d, .encoding k rows⟩
        ⟨{ d with ckpt := if c.total ≤ k + 1 ∨ c.save (k + 1) = true then k + 1 else d.ckpt },
          .encoding (k + 1) fun name => rows name ++ [c.rate name (k + 1)]⟩
  /-- encode.py:149-162 for `push` -/
  | writePush (d : Dir) (k : ℕ) (rows : Name → List (ℕ → ℝ)) (h : ¬ k < c.total) :
      Step c ⟨d, .encoding k rows⟩
        ⟨{ d with files := fun n => if n = .push then some (summary (rows .push)) else d.files n }, .writing rows⟩
  /-- encode.py:149-162 for `pop`, and the end -/
  | writePop (d : Dir) (rows : Name → List (ℕ → ℝ)) :
      Step c ⟨d, .writing rows⟩
        ⟨{ d with files := fun n => if n = .pop then some (summary (rows .pop)) else d.files n }, .done⟩
  /-- The process is killed. -/
  | crash (d : Dir) (p : Proc) : Step c ⟨d, p⟩ ⟨d, .idle⟩

/-- The states that a history of starts, steps and crashes leads to. -/
def Reachable (c : Cfg) (w : World) : Prop := Relation.ReflTransGen (Step c) {} w

end Verif.Script.RateFiles
