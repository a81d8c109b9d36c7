import Verif.Train.Schedules
import Mathlib.Algebra.Order.Floor.Ring

/-!
# Learning rate of a training run of the video project

Models `configure_optimizers` of `projects/torch_vct/model_lightning.py` with the files of
`projects/torch_vct/config/scheduler` and the `training_loop` section of `config/train_config.yaml`: which schedule is built
for which run, how often Lightning applies it, and the rate at each training step.  Real arithmetic for the rates.
-/

namespace Verif.Train.VctRun

open Real

/-- The files of config/scheduler, one per schedule. -/
inductive Kind where
  | rampCosine | rampLinear | warmUpCosine | cosine | exponential
  deriving DecidableEq

/-- config/train_config.yaml:24-49: what the schedules depend on. -/
structure Config where
  kind : Kind
  /-- train_config.yaml:25 `training_loop.learning_rate` -/
  lr : ℝ
  /-- train_config.yaml:26,42 `training_loop.lr_annealing_frequency` -/
  freq : ℕ
  /-- train_config.yaml:49 `trainer.max_steps` -/
  maxSteps : ℕ

/-- config/train_config.yaml:30 `pseudo_epochs`: Python's `//` of integers; `none` is a ZeroDivisionError. -/
def pseudoEpochs (c : Config) : Option ℕ :=
  if c.freq = 0 then none else some (c.maxSteps / c.freq)

/-- Python's `//` of a float and an integer: the floor of the quotient. -/
noncomputable def floorDiv (x : ℝ) (n : ℕ) : ℝ := (⌊x / n⌋ : ℤ)

/-- torch.optim.lr_scheduler.CosineAnnealingLR (torch 1.x and 2.x) with `eta_min=0`: the rate after `e` applications is
computed from the rate before.  `T` is `T_max`; a division by zero, at `T = 0`, is `none`. -/
noncomputable def cosineAnnealing (T : ℕ) (base : ℝ) : ℕ → Option ℝ
  | 0 => some base
  | e + 1 => do
    if T = 0 then none
    let lr ← cosineAnnealing T base e
    if ((e : ℤ) - T) % (2 * T) = 0 then
      return lr + base * (1 - cos (π / T)) / 2
    else
      return (1 + cos (π * (e + 1) / T)) / (1 + cos (π * e / T)) * lr

/-- model_lightning.py:203-206 with config/scheduler/*.yaml: the rate after `e` applications of the schedule.
exponential.yaml:2 has `gamma: 0.92`; cosine.yaml:2 has `T_max: ${trainer.max_steps}`. -/
noncomputable def rateAt (c : Config) (e : ℕ) : Option ℝ := do
  match c.kind with
  | .rampCosine =>
    let P ← pseudoEpochs c
    linearRampCosine P (P / 20) e (floorDiv c.lr 100) c.lr
  | .rampLinear =>
    let P ← pseudoEpochs c
    linearRampLinear (P * 8 / 10) e c.lr
  | .warmUpCosine =>
    let P ← pseudoEpochs c
    linearWarmUpCosine P (P / 20) e (floorDiv c.lr 10) c.lr
  | .cosine => cosineAnnealing c.maxSteps c.lr e
  | .exponential => some (c.lr * (23 / 25) ^ e)

/-- The counters of Lightning's training loop that decide about the schedule: the index of the next batch in its epoch and
the number of applications of the schedule. -/
structure Loop where
  batchIdx : ℕ := 0
  applied : ℕ := 0

/-- model_lightning.py:208-211 with Lightning 1.x/2.x `_TrainingEpochLoop._update_learning_rates`: after each batch the
schedule is applied if `batch_idx + 1` is divisible by `frequency`; `batch_idx` counts from the start of the epoch of `E`
batches.  A frequency of zero raises earlier, in `pseudoEpochs`, except for the exponential and cosine schedules, where it
raises here; it is left out. -/
def Loop.step (E freq : ℕ) (s : Loop) : Loop :=
  let applied := if (s.batchIdx + 1) % freq = 0 then s.applied + 1 else s.applied
  if s.batchIdx + 1 = E then ⟨0, applied⟩ else ⟨s.batchIdx + 1, applied⟩

/-- The counters after `n` training steps. -/
def Loop.run (E freq : ℕ) : ℕ → Loop
  | 0 => {}
  | n + 1 => (Loop.run E freq n).step E freq

/-- The learning rate of training step `n` (counted from 0) of a run with epochs of `E` batches. -/
noncomputable def stepRate (c : Config) (E n : ℕ) : Option ℝ := rateAt c (Loop.run E c.freq n).applied

end Verif.Train.VctRun
