import Mathlib.Data.List.Basic
import Mathlib.Logic.Function.Iterate

/-!
# Staged training of the deep video compression project

Model of `/repo/projects/deep_video_compression/train.py` and of the stages in
`/repo/projects/deep_video_compression/_utils.py`: which parts of the model a stage holds, how the stages follow each
other, checkpoints and restarts, and the images that are logged.

Simplifications: one optimisation step is an arbitrary function of the number of the step, the weights of the stage and
the state of the optimizers (data order and noise are fixed by the number of the step); a checkpoint is written
completely or not at all and holds the number of steps, the weights and the state of the optimizers; checkpoints other
than `last.ckpt` are written together with it (`save_last: True` in `config/base.yaml`) and never read.
-/

namespace Verif.Train.Stages

/-- The parts of a `DVC` model: `deep_video_compression.py:118-169`. -/
inductive Part where
  | motionEstimator
  | motionEncoder
  | motionEntropyBottleneck
  | motionDecoder
  | motionCompensation
  | residualEncoder
  | residualEntropyBottleneck
  | residualDecoder
  deriving DecidableEq

open Part

/-- The classes of `TRAINING_STAGES`: `dvc_module.py:26-32`. -/
inductive Class where
  | stage1
  | stage2
  | stage3
  | stage4and5
  deriving DecidableEq

/-- The parts that the constructor of a stage takes from the model: `_utils.py:65-69`, `110-125`, `179-194`, `251-257`. -/
def Class.parts : Class → List Part
  | .stage1 => [motionEstimator]
  | .stage2 => [motionEstimator, motionEncoder, motionEntropyBottleneck, motionDecoder]
  | .stage3 => [motionEstimator, motionEncoder, motionEntropyBottleneck, motionDecoder, motionCompensation]
  | .stage4and5 => [motionEstimator, motionEncoder, motionEntropyBottleneck, motionDecoder, motionCompensation,
      residualEncoder, residualEntropyBottleneck, residualDecoder]

/-- The parts that `recompose_model` puts back: `_utils.py:105-107`, `170-175`, `241-247`; the last class returns the
model it holds, with all its parts (`_utils.py:307-308`). -/
def Class.putBack : Class → List Part
  | .stage1 => [motionEstimator]
  | .stage2 => [motionEstimator, motionEncoder, motionEntropyBottleneck, motionDecoder]
  | .stage3 => [motionEstimator, motionEncoder, motionEntropyBottleneck, motionDecoder, motionCompensation]
  | .stage4and5 => [motionEstimator, motionEncoder, motionEntropyBottleneck, motionDecoder, motionCompensation,
      residualEncoder, residualEntropyBottleneck, residualDecoder]

/-- The name of a stage in the configuration and its class: `config/training_stages/*.yaml`, `dvc_module.py:26-32`. -/
def config : List (String × Class) :=
  [("s1_motion_estimation", .stage1), ("s2_motion_compression", .stage2), ("s3_motion_compensation", .stage3),
    ("s4_total_2frame", .stage4and5), ("s5_total", .stage4and5)]

/-- `sorted(cfg.training_stages.keys())`: `train.py:161`. -/
def order (keys : List String) : List String := keys.mergeSort fun a b => decide (a ≤ b)

/-- The class of stage number `k` of the default configuration. -/
def classOf (k : ℕ) : Class := ((config[k]?).map Prod.snd).getD .stage4and5

variable {V O : Type}

/-- The weights of the whole model. -/
abbrev Model (V : Type) := Part → V

/-- The weights of the parts that stage `k` holds. -/
abbrev Held (V : Type) (k : ℕ) := {p : Part // p ∈ (classOf k).parts} → V

/-- The training of the stages: number of steps (`max_steps`), fresh optimizers (`configure_optimizers`), one step
(`dvc_module.py:212-276`). -/
structure Training (V O : Type) where
  steps : ℕ → ℕ
  init : ℕ → O
  step : (k : ℕ) → ℕ → Held V k × O → Held V k × O

/-- The constructor of a stage (`train.py:119`): it shares the parts of the model. -/
def hold (k : ℕ) (m : Model V) : Held V k := fun p => m p.1

/-- `recompose_model` (`train.py:134`).  The parts are shared objects; here they are copied, so a part that is not put back
keeps the old weights. -/
def recompose (k : ℕ) (w : Held V k) (m : Model V) : Model V :=
  fun p => if h : p ∈ (classOf k).parts then (if p ∈ (classOf k).putBack then w ⟨p, h⟩ else m p) else m p

/-- A checkpoint of stage `k`. -/
abbrev Ckpt (V O : Type) (k : ℕ) := ℕ × Held V k × O

/-- The `last.ckpt` in the directory of each stage. -/
abbrev Dir (V O : Type) := (k : ℕ) → Option (Ckpt V O k)

/-- `trainer.fit` of stage `k`: `r` steps are left, `i` are done; `save` says after which steps a checkpoint is written; after
`fuel` steps the process dies.  The checkpoint that is left and, if the stage was completed, its state and the fuel
left. -/
def fit (t : Training V O) (save : ℕ → ℕ → Bool) (k : ℕ) :
    (r i : ℕ) → Held V k × O → Option (Ckpt V O k) → ℕ → Option (Ckpt V O k) × Option ((Held V k × O) × ℕ)
  | 0, _, s, slot, fuel => (slot, some (s, fuel))
  | _ + 1, _, _, slot, 0 => (slot, none)
  | r + 1, i, s, slot, fuel + 1 =>
    let s' := t.step k i s
    fit t save k r (i + 1) s' (if save k i then some (i + 1, s'.1, s'.2) else slot) fuel

/-- The flags of the configuration: `config/base.yaml`, `checkpoint`. -/
structure Flags where
  overwrite : Bool
  resume : Bool

/-- How a process ends. -/
inductive Outcome (V : Type) where
  | finished (m : Model V)
  | crashed
  /-- `RuntimeError` "Checkpoints detected in save directory": `train.py:103-112` -/
  | refused

/-- Where stage `k` starts: from `last.ckpt` if there is one and `overwrite` is not set (`train.py:115-117`, `129`), else from
the model of the stages before. -/
def start (t : Training V O) (f : Flags) (k : ℕ) (m : Model V) (dir : Dir V O) : Ckpt V O k :=
  match dir k with
  | some c => if f.overwrite then (0, hold k m, t.init k) else c
  | none => (0, hold k m, t.init k)

/-- The loop of `main` (`train.py:160-162`) with `run_training_stage` (`train.py:94-134`): `r` stages from number `k` on. -/
def stages (t : Training V O) (save : ℕ → ℕ → Bool) (f : Flags) :
    (r k : ℕ) → Model V → Dir V O → ℕ → Dir V O × Outcome V
  | 0, _, m, dir, _ => (dir, .finished m)
  | r + 1, k, m, dir, fuel =>
    if !f.overwrite && !f.resume && (dir k).isSome then (dir, .refused)
    else
      let c := start t f k m dir
      let out := fit t save k (t.steps k - c.1) c.1 c.2 (dir k) fuel
      let dir' := Function.update dir k out.1
      match out.2 with
      | none => (dir', .crashed)
      | some (s, fuel') => stages t save f r (k + 1) (recompose k s.1 m) dir' fuel'

/-- One start of `train.py`: a new model (`train.py:140`, not seeded), then the five stages of the configuration. -/
def attempt (t : Training V O) (f : Flags) (m : Model V) (save : ℕ → ℕ → Bool) (fuel : ℕ) (dir : Dir V O) :
    Dir V O × Outcome V := stages t save f config.length 0 m dir fuel

/-! ### Images in the log -/

/-- An image: width, height and the value of a channel at a pixel (row, column). -/
structure Img (α : Type) where
  h : ℕ
  w : ℕ
  px : ℕ → ℕ → ℕ → α

/-- `torch.cat(images, dim=-1)` of one clip: `train.py:53`. -/
def catX {α : Type} [Inhabited α] : List (Img α) → Img α
  | [] => ⟨0, 0, fun _ _ _ => default⟩
  | a :: l =>
    let r := catX l
    ⟨a.h, a.w + r.w, fun c y x => if x < a.w then a.px c y x else r.px c y (x - a.w)⟩

/-- `torch.cat(list(mosaic), dim=-2)`: `train.py:54`. -/
def catY {α : Type} [Inhabited α] : List (Img α) → Img α
  | [] => ⟨0, 0, fun _ _ _ => default⟩
  | a :: l =>
    let r := catY l
    ⟨a.h + r.h, a.w, fun c y x => if y < a.h then a.px c y x else r.px c (y - a.h) x⟩

/-- `log_images` for one key (`train.py:45-63`, without clipping and colouring): `times` has, per time, the images of the
clips; `b` is the number of clips. -/
def mosaic {α : Type} [Inhabited α] (b : ℕ) (times : List (ℕ → Img α)) : Img α :=
  catY ((List.range b).map fun i => catX (times.map fun f => f i))

/-- `append_images` (`train.py:38-43`) for the tuple `(flow, image1, image2, image2_est)`: an entry that is not `None` is
appended to the list of its key. -/
def appendImages {I : Type} (d : String → List I) (g : List (Option I)) : String → List I :=
  (["flow", "image1", "image2", "image2_est"].zip g).foldl
    (fun d kv => match kv.2 with
      | some v => fun k => if k = kv.1 then d k ++ [v] else d k
      | none => d) d

/-- The callback's own batch (only its first frame matters) and the first frame that is logged at the end of a
validation: `train.py:65-75` with `compress_iframe` (`dvc_module.py:137-151`).  `Tensor.to` returns the tensor itself if device
and type are those of the module (`same`), and `compress_iframe` writes into its argument. -/
def validationEnd {I : Type} (iframe : I → I) (same : Bool) (own : I) : I × I :=
  let x := iframe own
  (if same then x else own, x)

/-- The first frames logged by `n` validations, and the callback's batch afterwards. -/
def validations {I : Type} (iframe : I → I) (same : Bool) : ℕ → I → List I × I
  | 0, own => ([], own)
  | n + 1, own =>
    let r := validationEnd iframe same own
    let rest := validations iframe same n r.1
    (r.2 :: rest.1, rest.2)

end Verif.Train.Stages
