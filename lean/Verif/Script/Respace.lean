import Verif.Round
import Mathlib.Data.Finset.Card

/-!
Model of `space_timesteps` in
`/repo/projects/bits_back_diffusion/bits_back_diffusion/script_util.py:261-334`.

Simplifications: the strings `"ddimN"`, `"vlbN"` and the lists of numbers are parsed already; all numbers are natural
numbers. The floating point sum `cur_idx` is its exact value plus an arbitrary error.
-/

namespace Verif.Script.Respace

/-- The exceptions. -/
inductive Err | value | zeroDivision
deriving DecidableEq, Repr

/-- `section_counts`: `"ddimN"`, `"vlbN"`, or a list of numbers. -/
inductive Counts where
  | ddim (n : ℕ)
  | vlb (n : ℕ)
  | list (l : List ℕ)

/-- `len(range(0, total, stride))` for a positive stride. -/
def rangeLen (total stride : ℕ) : ℕ := (total + stride - 1) / stride

/-- `set(range(0, total, stride))`. -/
def rangeSet (total stride : ℕ) : Finset ℕ := (Finset.range (rangeLen total stride)).image (· * stride)

/-- The search for a stride: `script_util.py:293-301`. -/
def ddimSearch (total n : ℕ) : List ℕ → Except Err (Finset ℕ)
  | [] => .error .value
  | i :: is => if rangeLen total i = n then .ok (rangeSet total i) else ddimSearch total n is

/-- The stride inside a section: `script_util.py:321-324`. -/
noncomputable def fracStride (size count : ℕ) : ℝ :=
  if count ≤ 1 then 1 else ((size : ℝ) - 1) / ((count : ℝ) - 1)

/-- `taken_steps` of a section: `script_util.py:325-329`; `err j` is the error of `cur_idx` in round `j`. `round` gives an
integer, which is not negative here. -/
noncomputable def takenSteps (err : ℕ → ℝ) (start size count : ℕ) : List ℕ :=
  (List.range count).map fun j : ℕ => start + (roundHalfEven (j * fracStride size count + err j)).toNat

/-- The loop over the sections: `script_util.py:315-331`. -/
noncomputable def sectionLoop (err : ℕ → ℕ → ℝ) (sizePer extra : ℕ) :
    ℕ → ℕ → List ℕ → List ℕ → Except Err (List ℕ)
  | _, _, [], all => .ok all
  | i, start, count :: counts, all =>
    let size := sizePer + (if i < extra then 1 else 0)
    if size < count then .error .value
    else sectionLoop err sizePer extra (i + 1) (start + size) counts (all ++ takenSteps (err i) start size count)

/-- The sections: `script_util.py:312-332`. -/
noncomputable def sections (err : ℕ → ℕ → ℝ) (total : ℕ) (counts all : List ℕ) : Except Err (Finset ℕ) :=
  if counts.length = 0 then .error .zeroDivision
  else do
    let steps ← sectionLoop err (total / counts.length) (total % counts.length) 0 0 counts all
    return steps.toFinset

/-- `space_timesteps`: `script_util.py:261-334`. -/
noncomputable def spaceTimesteps (err : ℕ → ℕ → ℝ) (total : ℕ) : Counts → Except Err (Finset ℕ)
  | .ddim n => ddimSearch total n ((List.range (total - 1)).map (· + 1))
  | .vlb n =>
    if n = 0 then .error .zeroDivision
    else if total / n < n then sections err total [n - total / n + 1] (List.range (total / n))
    else .error .value
  | .list l => sections err total l []

end Verif.Script.Respace
