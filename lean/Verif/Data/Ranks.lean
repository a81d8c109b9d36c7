import Verif.Data.Loaders
import Verif.Data.Clips

/-!
Model of what the devices of a training run of the video project see: the loaders of
`/repo/projects/torch_vct/datamodules/kinetics.py` and `vimeo.py` in the runs of `/repo/projects/torch_vct/model_train.py`,
which start one process per device (`strategy: ddp_find_unused_parameters_false`, `config/train_config.yaml:60`).

Random number generators are arbitrary functions of their seed and of the number of draws before. The libraries are modelled
after their sources: `LabeledVideoDataset`, `UniformClipSampler` and `MultiProcessSampler` of pytorchvideo, `DataLoader` and
`DistributedSampler` of PyTorch, `seed_everything` and the replacement of samplers of Lightning (which is made for data sets
with indices only). Trusted: between the seeding and the end of training the processes draw equally often from the generator
of the CPU (the model draws on its device, the transforms in the worker processes).
-/

namespace Verif.Data.Ranks

open Verif.Data.Loaders (batches)

/-- The random generators: the number drawn from the CPU generator with a seed after some draws, and the permutation of
the videos drawn from a generator with a seed after some permutations. -/
structure Rng where
  draw : ℕ → ℕ → ℕ
  perm : ℕ → ℕ → List ℕ

/-- The seed of every `torch.Generator()` that was not seeded. -/
def defaultSeed : ℕ := 67280421310721

/-- The settings of a run: `config/train_config.yaml:2`, `5`, `28`; `kinetics.py:34-45`. -/
structure Settings where
  /-- `cfg.seed`. -/
  seed : Option ℕ
  workers : ℕ
  batchSize : ℕ

/-- The seed of the CPU generator of a process: `model_train.py:86-87` seeds if the entry counts as true; without that,
the generator of the process has an unpredictable seed. -/
def processSeed (s : Settings) (entropy : ℕ) : ℕ :=
  match s.seed with
  | none => entropy
  | some 0 => entropy
  | some (n + 1) => n + 1

/-- What a process does with its generators: draws while constructing modules, and starts of an iteration over the loader
(`build_image_logger`, `model_train.py:76-81`, and every epoch). -/
inductive Event
  | draws (n : ℕ)
  | iterate

/-- The generators of a process: draws from the CPU generator, and permutations from the generator of the data set. -/
structure Process where
  drawn : ℕ
  permuted : ℕ

/-- The orders of the videos in the iterations of a process: `kinetics.py:122-138` with the default sampler,
`RandomSampler`. With worker processes the data set seeds its generator with the number the loader drew; without, the
generator goes on from its default seed. -/
def orders (g : Rng) (s : Settings) (entropy : ℕ) : Process → List Event → List (List ℕ)
  | _, [] => []
  | p, .draws n :: es => orders g s entropy { p with drawn := p.drawn + n } es
  | p, .iterate :: es =>
    (if 0 < s.workers then g.perm (g.draw (processSeed s entropy) p.drawn) 0 else g.perm defaultSeed p.permuted) ::
      orders g s entropy ⟨p.drawn + 1, p.permuted + 1⟩ es

/-- A clip: the video and the number of the clip in the video. -/
abbrev ClipId := ℕ × ℕ

/-- The clips of the videos in an order; `clips` is the number of clips of a video: `make_clip_sampler("uniform", …)`,
`kinetics.py:125-127`; one for `"random"`. -/
def clipsOf (clips : ℕ → ℕ) (videos : List ℕ) : List ClipId :=
  videos.flatMap fun v => (List.range (clips v)).map fun c => (v, c)

/-- The first position of worker `w` in `np.array_split` of `n` positions for `workers` workers. -/
def splitStart (n workers w : ℕ) : ℕ := w * (n / workers) + min w (n % workers)

/-- The clips of worker `w`: `MultiProcessSampler` of pytorchvideo. -/
def workerClips (clips : ℕ → ℕ) (workers : ℕ) (order : List ℕ) (w : ℕ) : List ClipId :=
  clipsOf clips ((order.drop (splitStart order.length workers w)).take
    (splitStart order.length workers (w + 1) - splitStart order.length workers w))

/-- The order in which `DataLoader` returns the batches of its workers: in turn, leaving out the ones that are done. -/
def inTurn {β : Type} : (n : ℕ) → List (List β) → List β
  | 0, _ => []
  | n + 1, ls => ls.filterMap List.head? ++ inTurn n (ls.map List.tail)

/-- The batches of an iteration over the loader: `kinetics.py:140-152`. The data set is iterable, so that every worker makes
batches of its own clips; the last one as it comes. -/
def epoch (clips : ℕ → ℕ) (s : Settings) (order : List ℕ) : List (List ClipId) :=
  if s.workers = 0 then batches s.batchSize (clipsOf clips order)
  else
    let perWorker := (List.range s.workers).map fun w => batches s.batchSize (workerClips clips s.workers order w)
    inTurn (perWorker.map List.length).sum perWorker

/-- The epochs of the process of a device. -/
def kinetics (g : Rng) (clips : ℕ → ℕ) (s : Settings) (entropy : ℕ) (es : List Event) : List (List (List ClipId)) :=
  (orders g s entropy ⟨0, 0⟩ es).map (epoch clips s)

/-! ### Vimeo -/

/-- `math.ceil(n / replicas)`. -/
def ceilDiv (n replicas : ℕ) : ℕ := (n + replicas - 1) / replicas

/-- `DistributedSampler`: the shuffled positions, continued from the beginning to a multiple of the number of devices. -/
def padIndices (replicas : ℕ) (order : List ℕ) : List ℕ :=
  let total := ceilDiv order.length replicas * replicas
  let padding := total - order.length
  if padding ≤ order.length then order ++ order.take padding
  else order ++ ((List.replicate (ceilDiv padding order.length) order).flatten).take padding

/-- The positions of a device: every `replicas`-th from `rank`. -/
def deviceIndices (replicas rank : ℕ) (order : List ℕ) : List ℕ :=
  (List.range (ceilDiv order.length replicas)).filterMap fun j => (padIndices replicas order)[rank + j * replicas]?

/-- The batches of an epoch of a device: `vimeo.py:97-105`, whose sampler Lightning replaces by a `DistributedSampler` in runs
on several devices; its permutation depends on the seed of the run and the epoch only, and is an input here. -/
def vimeo (s : Settings) (replicas rank : ℕ) (order : List ℕ) : List (List ℕ) :=
  batches s.batchSize (deviceIndices replicas rank order)

/-! ### The clips of Kinetics -/

open Verif.Data.Clips (Clip Draw randomCrop resizedCrop hflip centerCrop)

/-- The modes: `kinetics.py:190-202`. -/
inductive Mode | train | val | test
deriving DecidableEq

/-- `Normalize((0.45,) * 3, (0.225,) * 3)` on a clip: `kinetics.py:77-80`, `224-226`. -/
def normalized (v : Clip ℚ) : Clip ℚ := { v with px := fun k c y x => (v.px k c y x - 45 / 100) / (225 / 1000) }

/-- `x / 255.0`: `kinetics.py:223`. -/
def scaled (v : Clip ℕ) : Clip ℚ := ⟨v.t, v.c, v.h, v.w, fun k c y x => (v.px k c y x : ℚ) / 255⟩

/-- `_video_transform` after the subsampling of frames: `kinetics.py:223-252`; `video_crop_size` is 256,
`kinetics.py:81`. Frames and channels are in the other order in the code until the collation. -/
def frames (interp : ℕ → ℕ → (ℕ → ℕ → ℚ) → ℕ → ℕ → ℚ) (normalize : Bool) (mode : Mode) (d : Draw) (v : Clip ℕ) : Clip ℚ :=
  let v := scaled v
  let v := if normalize then normalized v else v
  match mode with
  | .train =>
    let v := if d.plain then randomCrop 0 (256, 256) d.i d.j v else resizedCrop 0 interp (256, 256) d.attempts v
    if d.flip then hflip v else v
  | .val => centerCrop 0 (256, 256) v
  | .test => v

end Verif.Data.Ranks
