import Verif.Functional.MsSsim

/-!
Model of the accumulating metrics: `/repo/neuralcompression/metrics/_msssim.py`, `_dists.py`, `_fid.py`,
`_fid_swav.py`, `_kid.py`.

Simplifications: numbers are real; the DISTS network, the feature extractors and the final distances are arbitrary
functions (networks in evaluation mode treat every image of a batch by itself).  `torchmetrics` is modelled as far as
used: `reset` restores the default state, merging replicas applies `dist_reduce_fx`.
-/

namespace Verif.Train.Accum

open Verif.Functional.MsSsim

/-! ### MS-SSIM -/

/-- The configuration of `MultiscaleStructuralSimilarity`: `_msssim.py:17-64`. -/
structure Config where
  params : Params
  factors : List ℝ

/-- The state: `_msssim.py:66-67`. -/
structure State where
  scoreSum : ℝ
  total : ℕ

/-- The default state: `_msssim.py:66-67`. -/
def State.init : State := ⟨0, 0⟩

/-- `update`: `_msssim.py:69-82`. -/
noncomputable def update (cfg : Config) (s : State) (preds target : Verif.Functional.MsSsim.Batch) :
    Except Verif.Functional.MsSsim.Err State :=
  (msSsim cfg.params cfg.factors "sum" preds target).bind fun out =>
    match out with
    | .scalar x => .ok ⟨s.scoreSum + x, s.total + preds.batch⟩
    | .perImage _ => .error .runtime

/-- `compute`: `_msssim.py:84-85`; `none` stands for the NaN of `0 / 0`. -/
noncomputable def compute (s : State) : Option ℝ := if s.total = 0 then none else some (s.scoreSum / s.total)

/-- Merging replicas, `dist_reduce_fx="sum"`: `_msssim.py:66-67`. -/
def merge (replicas : List State) : State := ⟨(replicas.map State.scoreSum).sum, (replicas.map State.total).sum⟩

/-- What a user does with one replica of the metric. -/
inductive Op where
  | update (preds target : Verif.Functional.MsSsim.Batch)
  | reset

/-- One operation. -/
noncomputable def step (cfg : Config) (s : State) : Op → Except Verif.Functional.MsSsim.Err State
  | .update preds target => update cfg s preds target
  | .reset => .ok State.init

/-- A history. -/
noncomputable def run (cfg : Config) : State → List Op → Except Verif.Functional.MsSsim.Err State
  | s, [] => .ok s
  | s, op :: ops => (step cfg s op).bind fun s => run cfg s ops

/-! ### DISTS -/

/-- An image tensor for DISTS: the shape without the batch axis, and the images. -/
structure Tensor (Img : Type) where
  rank4 : Bool
  channels : ℕ
  images : List Img

/-- `_valid_img`: `_dists.py:21-24`; `inRange` says that all values of an image lie in `[0, 1]`.  The maximum of an
empty tensor raises. -/
def validImg {Img : Type} (inRange : Img → Bool) (t : Tensor Img) : Bool :=
  t.rank4 && t.channels = 3 && t.images.all inRange

/-- The state of the DISTS metric: `_dists.py:75-76`. -/
structure DistsState where
  sumScores : ℝ
  total : ℕ

/-- `update`: `_dists.py:78-94`; `none` for the `ValueError`, the state is unchanged then. -/
def distsUpdate {Img : Type} (inRange : Img → Bool) (net : Img → Img → ℝ) (s : DistsState) (a b : Tensor Img) :
    Option DistsState :=
  if validImg inRange a && validImg inRange b then
    some ⟨s.sumScores + ((a.images.zip b.images).map fun x => net x.1 x.2).sum, s.total + a.images.length⟩
  else none

/-- `compute`: `_dists.py:96-101`, with `reduction` "mean" (`true`) or "sum". -/
noncomputable def distsCompute (mean : Bool) (s : DistsState) : Option ℝ :=
  if mean then (if s.total = 0 then none else some (s.sumScores / s.total)) else some s.sumScores

/-! ### FID and KID -/

/-- The features of the real and of the generated images, one list per update: `_fid.py:77-78`, `_fid_swav.py:93-94`,
`_kid.py:74-75`. -/
structure FeatState (F : Type) where
  real : List (List F)
  fake : List (List F)

/-- `update`: `_fid.py:80-89`, `_fid_swav.py:96-106`, `_kid.py:77-84`. -/
def featUpdate {Img F : Type} (extract : Img → F) (s : FeatState F) (images : List Img) (real : Bool) : FeatState F :=
  if real then { s with real := s.real ++ [images.map extract] } else { s with fake := s.fake ++ [images.map extract] }

/-- What a state of the metric can be: the list of the features of the updates, or one tensor. -/
inductive ListState (F : Type) where
  | list (l : List (List F))
  | tensor (l : List F)

/-- What `compute` raises. -/
inductive FeatErr | runtime | type
deriving DecidableEq, Repr

/-- `torch.cat`: it takes lists of tensors only and raises `TypeError` for a tensor, and `RuntimeError` for no tensors. -/
def torchCat {F : Type} : ListState F → Except FeatErr (List F)
  | .list [] => .error .runtime
  | .list l => .ok l.flatten
  | .tensor _ => .error .type

/-- `compute`: `_fid.py:91-95`, `_fid_swav.py:108-112`, `_kid.py:86-94`. -/
def featCompute {F R : Type} (distance : List F → List F → R) (real fake : ListState F) : Except FeatErr R := do
  let real ← torchCat real
  let fake ← torchCat fake
  return distance real fake

/-- `compute` in one process without `torch.distributed`: the states are the lists. -/
def localCompute {F R : Type} (distance : List F → List F → R) (s : FeatState F) : Except FeatErr R :=
  featCompute distance (.list s.real) (.list s.fake)

/-- Synchronising a state with `dist_reduce_fx="cat"` (`_fid.py:77-78`, `_fid_swav.py:93-94`), as `torchmetrics` 1.1.0 does
before `compute` whenever `torch.distributed` is initialised: every replica concatenates its list, the results are gathered
and concatenated to a tensor. (If some but not all replicas have no updates, gathering does not return; this is left out.) -/
def syncCat {F : Type} (replicas : List (List (List F))) : ListState F :=
  if replicas.all List.isEmpty then .list [] else .tensor (replicas.map List.flatten).flatten

/-- Synchronising a state with `dist_reduce_fx=None` (`_kid.py:74-75`): update by update, the features of all replicas are
gathered into a list. `n` is the number of updates of every replica. -/
def syncNone {F : Type} (n : ℕ) (replicas : List (List (List F))) : ListState F :=
  .list ((List.range n).flatMap fun k => replicas.map fun r => r.getD k [])

/-- `FrechetInceptionDistance.compute`, `FrechetInceptionDistanceSwAV.compute` in a distributed run. -/
def fidDistributed {F R : Type} (distance : List F → List F → R) (replicas : List (FeatState F)) : Except FeatErr R :=
  featCompute distance (syncCat (replicas.map FeatState.real)) (syncCat (replicas.map FeatState.fake))

/-- `KernelInceptionDistance.compute` in a distributed run. -/
def kidDistributed {F R : Type} (distance : List F → List F → R) (nReal nFake : ℕ) (replicas : List (FeatState F)) :
    Except FeatErr R :=
  featCompute distance (syncNone nReal (replicas.map FeatState.real)) (syncNone nFake (replicas.map FeatState.fake))

end Verif.Train.Accum
