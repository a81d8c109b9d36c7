import Mathlib.Logic.Relation
import Mathlib.Order.Basic

/-!
Model of the run directories of the two training scripts: which checkpoint a run starts from, over any history of starts,
saves and crashes.  `fetch_checkpoint` (`/repo/projects/illm/train.py:256-277`) and the same part of
`/repo/projects/torch_vct/model_train.py:89-108`.

Lightning's `ModelCheckpoint` (2.0.1, with `save_last: True` as in `/repo/projects/illm/conf/config.yaml:47-52`) is
modelled as far as used: a save first writes a checkpoint of the best models, if the monitored value asks for it, and then
`last.ckpt`; if there is a file of that name that this run did not write, it takes `last-v1.ckpt`, `last-v2.ckpt`, and so
on; the name is part of the checkpoint and is restored with it.

Simplifications: the state of model, optimisers and trainer is one value; a file is written in one step; checkpoints of
the best models are one bit, since neither script ever loads them.
-/

namespace Verif.Train.Runs

/-- `RuntimeError`. -/
inductive Err | runtime
deriving DecidableEq, Repr

/-- The two scripts. -/
inductive Script | illm | vct
deriving DecidableEq, Repr

/-- `cfg.checkpoint.overwrite` and `cfg.checkpoint.resume_training`. -/
structure Flags where
  overwrite : Bool
  resume : Bool
deriving DecidableEq, Repr

/-- The defaults: `illm/conf/config.yaml:45-46`, `torch_vct/config/train_config.yaml:34-35`. -/
def Flags.default : Flags := ⟨false, true⟩

/-- A checkpoint: the state, and `last_model_path` of the callback. -/
structure Ckpt (S : Type) where
  state : S
  path : Option ℕ

/-- The directory: `last 0` is `last.ckpt`, `last v` is `last-v{v}.ckpt`; `best`: there are other `*.ckpt` files. -/
structure Dir (S : Type) where
  last : ℕ → Option (Ckpt S)
  best : Bool

/-- `len(list(checkpoint_dir.glob("*.ckpt"))) > 0`: `train.py:262`, `model_train.py:95`. -/
def Dir.Any {S : Type} (d : Dir S) : Prop := d.best = true ∨ ∃ v, (d.last v).isSome

/-- The process: `running` with the state and the callback's `last_model_path`; `saving` between the two writes of a
save. -/
inductive Proc (S : Type)
  | stopped
  | running (s : S) (path : Option ℕ)
  | saving (s : S) (path : Option ℕ)

/-- The world; `saves` records the states of all completed saves, the newest first (the programs do not read it). -/
structure World (S : Type) where
  dir : Dir S
  proc : Proc S
  saves : List S

variable {S : Type}

open Classical in
/-- The checkpoint to start from: `train.py:256-277` and `model_train.py:91-108`; `none` is a new run. -/
noncomputable def fetch (sc : Script) (f : Flags) (d : Dir S) : Except Err (Option (Ckpt S)) :=
  if f.overwrite = false ∧ f.resume = false ∧ d.Any then .error .runtime
  else match sc with
    | .illm => if f.overwrite = false then .ok (d.last 0) else .ok none
    | .vct => if f.resume = true then .ok (d.last 0) else .ok none

/-- The process after the start: `trainer.fit(..., ckpt_path=...)`, `train.py:363`, `model_train.py:152-156`; `init` is
the state of a new run. -/
def begin (init : S) : Option (Ckpt S) → Proc S
  | none => .running init none
  | some c => .running c.state c.path

/-- The name of the last checkpoint: the first version that is free or was written by this run. -/
def IsVersion (d : Dir S) (path : Option ℕ) (v : ℕ) : Prop :=
  (d.last v = none ∨ path = some v) ∧ ∀ u < v, d.last u ≠ none ∧ path ≠ some u

/-- `last` after the save under version `v`: the new file is written, then the previous one removed. -/
def Dir.save (d : Dir S) (s : S) (path : Option ℕ) (v : ℕ) : Dir S :=
  { d with last := fun u => if u = v then some ⟨s, some v⟩ else if path = some u then none else d.last u }

/-- What can happen to a run directory. `next` are the possible training steps. -/
inductive Step (sc : Script) (init : S) (next : S → S → Prop) (allowed : Flags → Prop) : World S → World S → Prop
  | start (w : World S) (f : Flags) (c : Option (Ckpt S)) : w.proc = .stopped → allowed f → fetch sc f w.dir = .ok c →
      Step sc init next allowed w ⟨w.dir, begin init c, w.saves⟩
  | train (d : Dir S) (s s' : S) (p : Option ℕ) (l : List S) : next s s' →
      Step sc init next allowed ⟨d, .running s p, l⟩ ⟨d, .running s' p, l⟩
  | saveBest (d : Dir S) (s : S) (p : Option ℕ) (l : List S) :
      Step sc init next allowed ⟨d, .running s p, l⟩ ⟨{ d with best := true }, .saving s p, l⟩
  | saveNoBest (d : Dir S) (s : S) (p : Option ℕ) (l : List S) :
      Step sc init next allowed ⟨d, .running s p, l⟩ ⟨d, .saving s p, l⟩
  | saveLast (d : Dir S) (s : S) (p : Option ℕ) (l : List S) (v : ℕ) : IsVersion d p v →
      Step sc init next allowed ⟨d, .saving s p, l⟩ ⟨d.save s p v, .running s (some v), s :: l⟩
  | stop (w : World S) : Step sc init next allowed w ⟨w.dir, .stopped, w.saves⟩

/-- A new directory. -/
def empty : World S := ⟨⟨fun _ => none, false⟩, .stopped, []⟩

/-- The histories of a run directory in which every start uses allowed flags. -/
def Reachable (sc : Script) (init : S) (next : S → S → Prop) (allowed : Flags → Prop) (w : World S) : Prop :=
  Relation.ReflTransGen (Step sc init next allowed) empty w

end Verif.Train.Runs
