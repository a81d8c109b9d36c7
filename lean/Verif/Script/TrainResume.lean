import Verif.Script.Resume

/-!
Model of the checkpoints of `/repo/projects/bits_back_diffusion/train.py`: `update_checkpoint` and
`parse_resume_step_from_filename` (`bits_back_diffusion/script_util.py:104-156`) and the two methods of `TrainLoop` that the
project overrides (`bits_back_diffusion/script_util.py:225-258`): training, saving, dying at any point and starting again in
the same directory.

The rest of the loop is `improved_diffusion.train_util.TrainLoop`, which is not in the repository and is assumed to do this:
iteration `step` of a process updates the state, then, if `step % save_interval == 0`, writes the files
`model{n:06d}.pt`, `ema_{rate}_{n:06d}.pt` for each rate and `opt{n:06d}.pt` in this order, with `n = step + resume_step`, then
increments `step`; `find_ema_checkpoint` gives the file of the rate and number next to the model file if it exists; if
`resume_step` is not 0 the optimizer is read from the file of that number if it exists and the averages with
`_load_ema_parameters`, otherwise the optimizer is new and the averages are copies of the weights.

Simplifications.  `lr_anneal_steps` is 0 (the default: training has no end).  A file is either written completely or torn,
and reading a torn file raises.  An update is an arbitrary relation between states.
-/

namespace Verif.Script.TrainResume

open Verif.Script.Resume (resumeStep File Newest put)

/-- The state of training: weights, moving averages by rate, optimizer. -/
structure St (W O ι : Type) where
  w : W
  ema : ι → W
  opt : O

/-- The directory: files by their number. -/
structure Dir (W O ι : Type) where
  model : ℕ → Option (File W)
  ema : ι → ℕ → Option (File W)
  opt : ℕ → Option (File O)

/-- The kinds of files. -/
inductive Slot (ι : Type)
  | model
  | ema (i : ι)
  | opt

/-- A process: not running (or ended by an exception), at the head of the loop, or saving.  `m` is `resume_step`, `r` is
`step`; `todo` are the files that are not written yet. -/
inductive Proc (W O ι : Type)
  | idle
  | failed
  | training (s : St W O ι) (m r : ℕ)
  | saving (s : St W O ι) (m r : ℕ) (todo : List (Slot ι))

/-- The directory, the process and (for the statements) the states whose saving began. -/
structure World (W O ι : Type) where
  dir : Dir W O ι
  proc : Proc W O ι
  saved : List (St W O ι)

/-- The configuration: `save_interval`, the rates in order, the new optimizer, `trainer.resume_checkpoint` if it is set (the
number of the file and the states in the files next to it), and the updates. -/
structure Cfg (W O ι : Type) where
  S : ℕ
  rates : List ι
  opt₀ : O
  explicit : Option (ℕ × St W O ι)
  upd : St W O ι → St W O ι → Prop

variable {W O ι : Type} [DecidableEq ι]

/-- The key of `model{n:06d}.pt`: `int(path.stem[-6:])`, script_util.py:119-122. -/
def key (n : ℕ) : ℤ := resumeStep (n : ℤ)

/-- `resume_step` for a file: script_util.py:234. -/
def resumeOf (n : ℕ) : ℕ := (key n).toNat

/-- The files in the order in which they are written. -/
def Cfg.slots (c : Cfg W O ι) : List (Slot ι) := [.model] ++ c.rates.map .ema ++ [.opt]

/-- One file is written: number `n`. -/
def write (d : Dir W O ι) (s : St W O ι) (n : ℕ) : Slot ι → Dir W O ι
  | .model => { d with model := put d.model n (.full s.w) }
  | .ema i => { d with ema := fun j => if j = i then put (d.ema j) n (.full (s.ema i)) else d.ema j }
  | .opt => { d with opt := put d.opt n (.full s.opt) }

/-- One file is left torn. -/
def tear (d : Dir W O ι) (n : ℕ) : Slot ι → Dir W O ι
  | .model => { d with model := put d.model n .torn }
  | .ema i => { d with ema := fun j => if j = i then put (d.ema j) n .torn else d.ema j }
  | .opt => { d with opt := put d.opt n .torn }

/-- A file that is read if it exists: `none` for an exception. -/
def readOr {α : Type} (f : Option (File α)) (a : α) : Option α :=
  match f with
  | none => some a
  | some (.full b) => some b
  | some .torn => none

/-- The state that a process loads from the weights `w` and the files of number `m` (`_load_ema_parameters`,
script_util.py:245-258, and the optimizer). -/
def Loads (c : Cfg W O ι) (d : Dir W O ι) (m : ℕ) (w : W) (s : St W O ι) : Prop :=
  s.w = w ∧ if m = 0 then s.opt = c.opt₀ ∧ ∀ i, s.ema i = w
    else readOr (d.opt m) c.opt₀ = some s.opt ∧ ∀ i, readOr (d.ema i m) w = some (s.ema i)

/-- A start: script_util.py:141-156 and 232-243. -/
inductive Start (c : Cfg W O ι) : World W O ι → World W O ι → Prop
  /-- `trainer.resume_checkpoint` is a file: it is kept (script_util.py:143-144, 155-156). -/
  | explicit (w : World W O ι) (m : ℕ) (s : St W O ι) : c.explicit = some (m, s) →
      Start c w ⟨w.dir, .training s m 0, w.saved⟩
  /-- No file `model*.pt` in the directory: any initial weights. -/
  | fresh (w : World W O ι) (x : W) : c.explicit = none → (∀ k, w.dir.model k = none) →
      Start c w ⟨w.dir, .training ⟨x, fun _ => x, c.opt₀⟩ 0 0, w.saved⟩
  /-- The last checkpoint (script_util.py:149-153) is loaded. -/
  | load (w : World W O ι) (k : ℕ) (x : W) (s : St W O ι) : c.explicit = none → Newest key w.dir.model k →
      w.dir.model k = some (.full x) → Loads c w.dir (resumeOf k) x s → Start c w ⟨w.dir, .training s (resumeOf k) 0, w.saved⟩
  /-- The last checkpoint cannot be read. -/
  | bad (w : World W O ι) (k : ℕ) : c.explicit = none → Newest key w.dir.model k →
      (w.dir.model k = some .torn ∨ ∃ x, w.dir.model k = some (.full x) ∧ ∀ s, ¬ Loads c w.dir (resumeOf k) x s) →
      Start c w ⟨w.dir, .failed, w.saved⟩

/-- A step of the running process. -/
inductive Run (c : Cfg W O ι) : World W O ι → World W O ι → Prop
  | update (d : Dir W O ι) (s s' : St W O ι) (m r : ℕ) (h : List (St W O ι)) : c.upd s s' → r % c.S ≠ 0 →
      Run c ⟨d, .training s m r, h⟩ ⟨d, .training s' m (r + 1), h⟩
  | updateSave (d : Dir W O ι) (s s' : St W O ι) (m r : ℕ) (h : List (St W O ι)) : c.upd s s' → r % c.S = 0 →
      Run c ⟨d, .training s m r, h⟩ ⟨d, .saving s' m r c.slots, s' :: h⟩
  | write (d : Dir W O ι) (s : St W O ι) (m r : ℕ) (h : List (St W O ι)) (x : Slot ι) (l : List (Slot ι)) :
      Run c ⟨d, .saving s m r (x :: l), h⟩ ⟨write d s (r + m) x, .saving s m r l, h⟩
  | saved (d : Dir W O ι) (s : St W O ι) (m r : ℕ) (h : List (St W O ι)) :
      Run c ⟨d, .saving s m r [], h⟩ ⟨d, .training s m (r + 1), h⟩

/-- The process dies. -/
inductive Crash : World W O ι → World W O ι → Prop
  | lost (w : World W O ι) : Crash w ⟨w.dir, .idle, w.saved⟩
  | torn (d : Dir W O ι) (s : St W O ι) (m r : ℕ) (h : List (St W O ι)) (x : Slot ι) (l : List (Slot ι)) :
      Crash ⟨d, .saving s m r (x :: l), h⟩ ⟨tear d (r + m) x, .idle, h⟩

/-- The process is not running. -/
def Stopped (w : World W O ι) : Prop := w.proc = .idle ∨ w.proc = .failed

/-- Anything that can happen next; `calm` leaves out deaths while files are being written. -/
inductive Step (c : Cfg W O ι) (calm : Prop) : World W O ι → World W O ι → Prop
  | start {w w'} : Stopped w → Start c w w' → Step c calm w w'
  | run {w w'} : Run c w w' → Step c calm w w'
  | crash {w w'} : (calm → ∀ s m r l, w.proc ≠ .saving s m r l) → Crash w w' → Step c calm w w'

/-- The world before the first start. -/
def empty : World W O ι := ⟨⟨fun _ => none, fun _ _ => none, fun _ => none⟩, .idle, []⟩

/-- The histories of a directory. -/
def Reachable (c : Cfg W O ι) (calm : Prop) (w : World W O ι) : Prop := Relation.ReflTransGen (Step c calm) empty w

/-! ### Several processes -/

/-- `_load_and_sync_parameters` and `_load_ema_parameters` with processes of numbers 0, 1, …: each has its own weights, the
first one loads the file if there is one, then all get those of the first: script_util.py:232-243, 245-258. -/
def loadSync {α : Type} (own : ℕ → α) (file : Option α) : ℕ → α :=
  let loaded : ℕ → α := fun rank => if rank = 0 then file.getD (own rank) else own rank
  fun _ => loaded 0

end Verif.Script.TrainResume
