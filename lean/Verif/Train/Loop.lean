import Verif.Train.Gan
import Verif.Train.Rate

/-!
Model of the training loop of `/repo/projects/illm`: how many batches a run takes and which value of the rate schedule
each batch uses.  `build_trainer` (`train.py:280-340`) changes the number of steps, `_get_scheduled_rate_param`
(`target_compression_module.py:74-82`) reads `trainer.global_step`.

Lightning (2.0.1, `requirements.txt`) is modelled as far as used.  Both modules optimise by hand
(`target_compression_module.py:60`), so `trainer.global_step` is the number of calls of `step` of all optimisers; the
loop takes batches while `global_step < max_steps`, for ever if `max_steps` is -1; any other negative `max_steps` raises
when the trainer is made.  Epochs are not modelled: the batches of all epochs form one sequence.
-/

namespace Verif.Train.Loop

open Verif.Train.Gan

/-- Raised when the trainer is made. -/
inductive Err | misconfiguration
deriving DecidableEq, Repr

/-- `math.ceil(max_steps * num_opts)`, for whole numbers: `train.py:318-327`. -/
def adjustedSteps (maxSteps : ℤ) (numOpts : ℕ) : ℤ := maxSteps * numOpts

/-- `pl.Trainer(max_steps=...)`: `train.py:329-338`. -/
def makeTrainer (maxSteps : ℤ) (numOpts : ℕ) : Except Err ℤ :=
  let steps := adjustedSteps maxSteps numOpts
  if steps < -1 then .error .misconfiguration else .ok steps

/-- The end of the loop is reached: `global_step >= max_steps`, never for -1. -/
def Done (steps : ℤ) (globalStep : ℕ) : Prop := steps ≠ -1 ∧ steps ≤ globalStep

/-- `trainer.fit` from batch `j` and state `s`: it returns after batch `k` with state `t`. -/
inductive Fit {S : Type} (steps : ℤ) (globalStep : S → ℕ) (step : ℕ → S → S) : ℕ → S → ℕ → S → Prop
  | stop (j : ℕ) (s : S) : Done steps (globalStep s) → Fit steps globalStep step j s j s
  | batch (j : ℕ) (s : S) (k : ℕ) (t : S) : ¬ Done steps (globalStep s) →
      Fit steps globalStep step (j + 1) (step j s) k t → Fit steps globalStep step j s k t

/-- The state after the first `j` batches. -/
def after {S : Type} (step : ℕ → S → S) (s : S) : ℕ → S
  | 0 => s
  | j + 1 => step j (after step s j)

variable {P Img : Type} [DecidableEq P]

/-- `trainer.global_step`: every call of `step` of an optimiser comes with a step of its schedule
(`gan_compression_module.py:156-157, 185-186, 194-195`, `target_compression_module.py:168-169, 176-177`). -/
def globalStep (s : State P) : ℕ := s.schedule .model + s.schedule .discriminator + s.schedule .quantile

/-- `len(module.configure_optimizers()[0])`: `train.py:319`, `gan_compression_module.py:301-314`. -/
def numOpts (o : Opts P) : ℕ := match o.quantile with
  | none => 2
  | some _ => 3

/-- A batch with discriminator: `gan_compression_module.py:91-197`. -/
def ganStep (n : Net P Img) (o : Opts P) (mc : Bool) (data : ℕ → List Img) (j : ℕ) (s : State P) : State P :=
  ((trainingStep n o mc (data j) s).1.getLastD s)

/-- `len(module.configure_optimizers()[0])`: `target_compression_module.py:293`. -/
def numOptsTarget : ℕ := 2

/-- A batch without discriminator: `target_compression_module.py:139-177`. -/
def targetStep (n : Net P Img) (lossGrad : (P → ℝ) → List Img → P → ℝ) (o : List P × List P) (data : ℕ → List Img)
    (j : ℕ) (s : State P) : State P :=
  (trainingStepTarget n lossGrad o (data j) s).2

/-- The scheduled parameter in the rate loss of a batch that begins in state `s`:
`target_compression_module.py:113-122, 151`, `gan_compression_module.py:117-137`. -/
def rateParam (s : State P) (base : ℝ) (factors : List ℝ) (steps : List ℤ) : Except Rate.Err ℝ :=
  Rate.scheduled (globalStep s) base factors steps

end Verif.Train.Loop
