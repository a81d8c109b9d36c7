import Mathlib.Data.Nat.Digits.Defs
import Mathlib.Logic.Function.Basic

/-!
Model of the cache of images to log: `build_wandb_image_logger`, `/repo/projects/illm/train.py:219-253`.

Any number of processes (ranks of a run, or runs with the same cache directory) go through the function at the same time,
each may be killed at any point.  The images may depend on random draws (crops).  A process that dumps makes the file
complete in one step, after a step in which the file is opened and truncated.  SHA-256 is an arbitrary function; theorems
that need it assume that it does not collide.  Indices are integers.
-/

namespace Verif.Train.LogCache

/-- A decimal digit. -/
def digitChar (d : ℕ) : Char := Char.ofNat ('0'.toNat + d)

/-- `str(n)` for a natural number. -/
def strNat (n : ℕ) : List Char := if n = 0 then ['0'] else (Nat.digits 10 n).reverse.map digitChar

/-- `str(i)` for an integer. -/
def strInt : ℤ → List Char
  | .ofNat n => strNat n
  | .negSucc n => '-' :: strNat (n + 1)

/-- `str` of a list of integers: `[1, 2, 3]`. -/
def strList (l : List ℤ) : List Char := '[' :: ((l.map strInt).intersperse [',', ' ']).flatten ++ [']']

/-- What the function reads of the configuration: the class of the data module, the rest of its configuration (directory,
image size, transforms), the indices of the images. -/
structure Config (D : Type) where
  target : List Char
  data : D
  train : List ℤ
  val : List ℤ

variable {D Img Draw H : Type}

/-- What is hashed: `train.py:225-228`. -/
def hashed (c : Config D) : List Char := c.target ++ strList c.train ++ strList c.val

/-- The two batches of images. -/
abbrev Images (Img : Type) := List Img × List Img

/-- The images with the indices of the configuration: `train.py:237-243`; `item` gives an image of the training (`true`) or
validation set. -/
def collect (item : List Char → D → Bool → ℤ → Draw → Img) (c : Config D) (w : Draw) : Images Img :=
  (c.train.map fun i => item c.target c.data true i w, c.val.map fun i => item c.target c.data false i w)

/-- A cache file: torn while it is written, or complete. -/
inductive File (Img : Type)
  | torn
  | complete (x : Images Img)

/-- Where a process is. -/
inductive Phase
  | reading | writing | opened

/-- The cache directory and the processes that are inside the function. -/
structure State (D Img H : Type) where
  file : H → Option (File Img) := fun _ => none
  proc : ℕ → Option (Phase × Config D) := fun _ => none

/-- What a process gets. -/
inductive Result (Img : Type)
  /-- The callback with its images: `train.py:253`. -/
  | images (x : Images Img)
  /-- `pickle.load` raises `EOFError` or `UnpicklingError`. -/
  | raised

/-- The events: a process starts and looks for the file (`train.py:230`), opens it and reads it (`train.py:231-235`), opens
it for writing (`train.py:244`), dumps (`train.py:245-251`), is killed. -/
inductive Event (D Draw : Type)
  | start (p : ℕ) (c : Config D)
  | read (p : ℕ)
  | openWrite (p : ℕ)
  | dump (p : ℕ) (w : Draw)
  | kill (p : ℕ)

variable [DecidableEq H]

/-- A step, with what a process gets from it; events that do not apply do nothing. -/
def step (sha : List Char → H) (item : List Char → D → Bool → ℤ → Draw → Img) (s : State D Img H) :
    Event D Draw → State D Img H × Option (Config D × Result Img)
  | .start p c => match s.proc p with
    | some _ => (s, none)
    | none =>
      let phase := if (s.file (sha (hashed c))).isSome then Phase.reading else Phase.writing
      ({ s with proc := Function.update s.proc p (some (phase, c)) }, none)
  | .read p => match s.proc p with
    | some (.reading, c) =>
      let s' := { s with proc := Function.update s.proc p none }
      match s.file (sha (hashed c)) with
      | some (.complete x) => (s', some (c, .images x))
      | _ => (s', some (c, .raised))
    | _ => (s, none)
  | .openWrite p => match s.proc p with
    | some (.writing, c) =>
      ({ file := Function.update s.file (sha (hashed c)) (some .torn)
         proc := Function.update s.proc p (some (.opened, c)) }, none)
    | _ => (s, none)
  | .dump p w => match s.proc p with
    | some (.opened, c) =>
      let x := collect item c w
      ({ file := Function.update s.file (sha (hashed c)) (some (.complete x))
         proc := Function.update s.proc p none }, some (c, .images x))
    | _ => (s, none)
  | .kill p => ({ s with proc := Function.update s.proc p none }, none)

/-- A history: the state and what the processes got, in order. -/
def run (sha : List Char → H) (item : List Char → D → Bool → ℤ → Draw → Img) :
    List (Event D Draw) → State D Img H → State D Img H × List (Config D × Result Img)
  | [], s => (s, [])
  | e :: es, s =>
    let (s, r) := step sha item s e
    let (s, rs) := run sha item es s
    (s, r.toList ++ rs)

end Verif.Train.LogCache
