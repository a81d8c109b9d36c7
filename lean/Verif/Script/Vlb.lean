import Mathlib.Data.Real.Basic
import Mathlib.Algebra.BigOperators.Group.List.Basic

/-!
Model of the evaluation of the variational bound, `/repo/projects/bits_back_diffusion/compute_vlb.py`, on any number of
processes, and of the data loader that `setup` configures for it (`bits_back_diffusion/script_util.py:159-222`,
`config/data/imagenet.yaml:10-16`).

Of `improved_diffusion` the following is assumed.  `calc_bpd_loop` returns per sample the total, the prior term and lists
of terms, from the last time step down to step 0; the total is the sum of the prior term and the terms of the bound.
`load_data` with `deterministic=True` gives each process every `W`-th image, in batches in order, without an incomplete
last batch, again and again.  Floats are real numbers; random noise is part of the samples.
-/

namespace Verif.Script.Vlb

/-- `ValueError` of concatenating nothing, and `AssertionError`. -/
inductive Err | value | assertion
deriving DecidableEq, Repr

/-- What `calc_bpd_loop` computes for a sample: terms by time step. -/
structure Sample where
  total : ℝ
  prior : ℝ
  vb : ℕ → ℝ
  mse : ℕ → ℝ
  xstartMse : ℕ → ℝ

/-- A list of terms as `calc_bpd_loop` returns it, for `T` steps. -/
def descending (T : ℕ) (f : ℕ → ℝ) : List ℝ := (List.range T).reverse.map f

/-- The three metrics: `compute_vlb.py:45`. -/
inductive Metric | vb | mse | xstartMse
deriving DecidableEq

/-- A row of the batch terms, with the prior in front for `vb`: `compute_vlb.py:60-65`. -/
def batchRow (T : ℕ) (s : Sample) : Metric → List ℝ
  | .vb => s.prior :: descending T s.vb
  | .mse => descending T s.mse
  | .xstartMse => descending T s.xstartMse

/-- `mean()` of a list. -/
noncomputable def mean (l : List ℝ) : ℝ := l.sum / l.length

/-- The state of the loop: `compute_vlb.py:43-45`. -/
structure State where
  complete : ℕ := 0
  bpds : List ℝ := []
  terms : Metric → List (List (List ℝ)) := fun _ => []

/-- An iteration on `W` processes with the batches `batch r`: `compute_vlb.py:47-78`.  All processes have the same state,
up to the number of samples, which each computes from its own batch; it is that of process 0. -/
noncomputable def step (T W : ℕ) (batch : ℕ → List Sample) (s : State) : State where
  complete := s.complete + (batch 0).length * W
  bpds := s.bpds ++ [((List.range W).map fun r => mean ((batch r).map Sample.total) / W).sum]
  terms := fun m => s.terms m ++ (List.range W).map fun r => (batch r).map fun x => batchRow T x m

/-- The state after `k` iterations. -/
noncomputable def run (T W : ℕ) (batch : ℕ → ℕ → List Sample) : ℕ → State
  | 0 => {}
  | k + 1 => step T W (batch k) (run T W batch k)

/-- The loop ends after `k` iterations: `compute_vlb.py:47`. -/
def EndsAfter (T W : ℕ) (batch : ℕ → ℕ → List Sample) (numSamples k : ℕ) : Prop :=
  numSamples ≤ (run T W batch k).complete ∧ ∀ j < k, (run T W batch j).complete < numSamples

/-- The `total_bpd` of the last log entry: `compute_vlb.py:77`. -/
noncomputable def reported (s : State) : ℝ := mean s.bpds

/-- The array of terms of process 0: `compute_vlb.py:86-90`. -/
def terms (T : ℕ) (s : State) (m : Metric) : Except Err (List (List ℝ)) :=
  match s.terms m with
  | [] => .error .value
  | l =>
    let rows := l.flatten.map List.reverse
    if rows.length = s.complete ∧ ∀ r ∈ rows, r.length = T + (if m = .vb then 1 else 0) then .ok rows else .error .assertion

/-- Position of image `i` of batch `k` of process `r` in the data, with `n` images: the images of a process are `r`,
`r + W`, ...; its loader has `n' / B` batches and starts again after them. -/
def position (n W B r k i : ℕ) : ℕ :=
  let shard := (n - r + (W - 1)) / W
  r + W * (B * (k % (shard / B)) + i)

/-- The images of the first `k` iterations. -/
def evaluated (n W B k : ℕ) : List ℕ :=
  (List.range k).flatMap fun t => (List.range W).flatMap fun r => (List.range B).map (position n W B r t)

end Verif.Script.Vlb
