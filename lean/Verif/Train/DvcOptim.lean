import Verif.Models.Hific
import Verif.Train.Stages
import Mathlib.Data.Real.Basic

/-!
Model of the constructor, `forward`, `configure_optimizers` and the optimiser steps of `DvcModule`
(`/repo/projects/deep_video_compression/dvc_module.py`), with torch's `StepLR` and the checkpoints of Lightning 1.3.5.
Rates are real numbers.
-/

namespace Verif.Train.DvcOptim

open Verif.Models.Hific (Param collectDvc collectDvcStage1)
open Verif.Train.Stages (Class)

/-- Python's exceptions. -/
inductive Err where
  | key
  | value
  | type
  | zeroDivision
  deriving DecidableEq

/-- The arguments of the constructor that are checked: `dvc_module.py:71-84`. -/
structure Args where
  pretrainedName : String
  quality : ℤ
  stage : String
  distortion : String

/-- `TRAINING_STAGES`: `dvc_module.py:26-32`. -/
def stageClass : String → Option Class
  | "1_motion_estimation" => some .stage1
  | "2_motion_compression" => some .stage2
  | "3_motion_compensation" => some .stage3
  | "4_total_2frame" => some .stage4and5
  | "5_total" => some .stage4and5
  | _ => none

/-- `DvcModule.__init__`: `dvc_module.py:94-118`. `zoo` is CompressAI's `models`: the quality levels of each name; a level
that a name does not have is a `ValueError`. The entropy function is always given, so the checks of the stages
(`_utils.py:123`, `192`, `255`) pass. -/
def init (zoo : String → Option (ℤ → Bool)) (a : Args) : Except Err Class :=
  match zoo a.pretrainedName with
  | none => .error .key
  | some levels =>
    if levels a.quality = false then .error .value
    else match stageClass a.stage with
      | none => .error .value
      | some c => if a.distortion = "MSE" then .ok c else .error .value

/-- `forward` of the stages, called with a list of positional arguments: `_utils.py:79`, `127`, `196`, `259`: two images. -/
def stageForward {I O : Type} (net : I → I → O) : List I → Except Err O
  | [image1, image2] => .ok (net image1 image2)
  | _ => .error .type

/-- `DvcModule.forward`: `dvc_module.py:128-129`. -/
def forward {I O : Type} (net : I → I → O) (images : I) : Except Err O := stageForward net [images]

/-- `lr_scheduler_params`: `dvc_module.py:82`: nothing, a tuple, or a mapping with the given `step_size` and `gamma` and
`unknown` further keys that `StepLR` does not know. -/
inductive SchedParams where
  | none
  | tuple (stepSize : ℤ) (gamma : ℝ)
  | mapping (stepSize : Option ℤ) (gamma : Option ℝ) (unknown : ℕ)

/-- The state of `StepLR`, all of which is in its `state_dict`. -/
structure Sched where
  stepSize : ℤ
  gamma : ℝ
  lastEpoch : ℕ

/-- `StepLR(base_optim, **params)`: `dvc_module.py:320-323`; `gamma` is 0.1 by default. The constructor makes one step, which
leaves the rate alone. `**` of a tuple is a `TypeError`. -/
noncomputable def mkSched : SchedParams → Except Err (Option Sched)
  | .none => .ok none
  | .tuple _ _ => .error .type
  | .mapping none _ _ => .error .type
  | .mapping (some n) gamma unknown =>
    if unknown = 0 then .ok (some ⟨n, gamma.getD 0.1, 0⟩) else .error .type

/-- `StepLR.step` with `get_lr` (torch): the rate is multiplied if the new `last_epoch` is divisible by `step_size`. -/
noncomputable def Sched.step (s : Sched) (lr : ℝ) : Except Err (Sched × ℝ) :=
  if s.stepSize = 0 then .error .zeroDivision
  else .ok ({ s with lastEpoch := s.lastEpoch + 1 },
    if (s.lastEpoch + 1 : ℤ) % s.stepSize ≠ 0 then lr else lr * s.gamma)

/-- `Adam(params, lr)`: a `ValueError` for a negative rate or an empty list. -/
noncomputable def adam (params : List Param) (lr : ℝ) : Except Err (List Param × ℝ) :=
  open Classical in if lr < 0 ∨ params = [] then .error .value else .ok (params, lr)

/-- The settings of a stage: `dvc_module.py:75-83`. -/
structure Settings where
  cls : Class
  params : List Param
  learningRate : ℝ
  auxLearningRate : ℝ
  sched : SchedParams
  numPframes : ℕ

/-- The optimisers of a run: the parameters and the rate of each, and the schedule of the first. -/
structure Optims where
  main : List Param
  lr : ℝ
  sched : Option Sched
  aux : Option (List Param × ℝ)

/-- `collect_parameters` of the stage: `_utils.py:34-46`, `71-77`. -/
def collect (c : Class) (params : List Param) : List Param × Option (List Param) :=
  if c = .stage1 then collectDvcStage1 params else ((collectDvc params).1, some (collectDvc params).2)

/-- `configure_optimizers`: `dvc_module.py:314-343`. -/
noncomputable def configure (s : Settings) : Except Err Optims := do
  let (model, quantile) := collect s.cls s.params
  let (main, lr) ← adam model s.learningRate
  let sched ← mkSched s.sched
  match quantile with
  | none => return ⟨main, lr, sched, none⟩
  | some q =>
    let aux ← adam q s.auxLearningRate
    return ⟨main, lr, sched, some aux⟩

/-- What the optimisers do in one batch. -/
inductive Event where
  /-- a step of the optimiser of the model with this rate -/
  | main (lr : ℝ)
  /-- a step of the optimiser of the quantiles with this rate -/
  | aux (lr : ℝ)

/-- The step of the schedule: `dvc_module.py:259-261`. -/
noncomputable def lrStep (o : Optims) : Except Err Optims :=
  match o.sched with
  | none => .ok o
  | some s => do
    let (s, lr) ← s.step o.lr
    return { o with sched := some s, lr := lr }

/-- `training_step` without the losses: `dvc_module.py:213-279`: a step of the first optimiser for each P-frame, one of the
schedule if there is one, then one of the second optimiser if there is one. -/
noncomputable def trainBatch (numPframes : ℕ) (o : Optims) : Except Err (List Event × Optims) := do
  let events := List.replicate numPframes (Event.main o.lr)
  let o ← lrStep o
  match o.aux with
  | none => return (events, o)
  | some a => return (events ++ [Event.aux a.2], o)

/-- A number of batches; the events of all batches, batch by batch. -/
noncomputable def trainBatches (numPframes : ℕ) : ℕ → Optims → Except Err (List (List Event) × Optims)
  | 0, o => .ok ([], o)
  | n + 1, o => do
    let (events, o) ← trainBatch numPframes o
    let (rest, o) ← trainBatches numPframes n o
    return (events :: rest, o)

/-- Restoring the optimisers from a checkpoint (Lightning 1.3.5, `restore_training_state`): the rates are in the parameter
groups of the optimisers, and the schedules are paired up with the saved ones; `StepLR.load_state_dict` replaces all its
fields. A run of the same stage has as many optimisers. -/
def restore (saved o : Optims) : Optims :=
  { o with
    lr := saved.lr
    sched := match o.sched, saved.sched with
      | some _, some s => some s
      | s, _ => s
    aux := match o.aux, saved.aux with
      | some a, some b => some (a.1, b.2)
      | a, _ => a }

/-- `trainer.fit`: `train.py:118-133`: from the last checkpoint or from new optimisers, until the process ends after `n`
batches. -/
noncomputable def fit (s : Settings) (saved : Option Optims) (n : ℕ) : Except Err (List (List Event) × Optims) := do
  let o ← configure s
  let o := match saved with
    | some c => restore c o
    | none => o
  trainBatches s.numPframes n o

/-- A start of the stage: its settings, after how many batches the last checkpoint was saved, if one was, and after how many
batches the process ended. -/
structure Start where
  settings : Settings
  save : Option ℕ
  batches : ℕ

/-- The checkpoint after a start that found `saved`: the optimisers at the last save. -/
noncomputable def leave (saved : Option Optims) (s : Start) : Except Err (Option Optims) :=
  match s.save with
  | none => .ok saved
  | some k => do
    let (_, o) ← fit s.settings saved k
    return some o

/-- The checkpoint after a history of starts from an empty directory. -/
noncomputable def history : List Start → Except Err (Option Optims)
  | starts => starts.foldlM leave none

end Verif.Train.DvcOptim
