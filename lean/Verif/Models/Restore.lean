import Mathlib.Data.List.Basic
import Mathlib.Algebra.BigOperators.Group.List.Basic

/-!
Saving and restoring of the models that code with tables: the autoencoders of `_hyperprior_autoencoder.py` (subclasses
of `compressai`'s `CompressionModel`), `DVC` and `VCTPipeline` (plain `nn.Module`s). The tables are registered buffers
of the bottleneck layers. They are empty tensors in a new model and get a size when `update` computes them, so that
loading has to deal with sizes that differ between the file and the model.

Simplification: the parameters of a model are one value of the type `P`, their sizes are the same for all models built
with the same settings and they are always copied. The dtype and the device of a buffer are not modelled.
-/

namespace Verif.Models.Restore

/-- A tensor: its size and its content. -/
structure Buf (V : Type) where
  size : List ℕ
  data : V
  deriving DecidableEq

/-- `torch.Tensor.numel`. -/
def Buf.numel {V : Type} (b : Buf V) : ℕ := b.size.prod

/-- The buffers of one bottleneck layer, in the order of registration. The first is `_offset`: `compressai`'s
`EntropyModel` registers `_offset`, `_quantized_cdf` and `_cdf_length`, `GaussianConditional` adds `scale_table`, and
`projects/torch_vct/neural/bottlenecks.py:108-113` adds `_indexes_table`, `_prior_mean` and `_prior_scale`. -/
abbrev Layer (V : Type) := List (Buf V)

/-- What a model with coding tables holds, and also what its `state_dict()` contains. -/
structure Model (P V : Type) where
  params : P
  layers : List (Layer V)

/-- The settings of a model: how many buffers each of its bottleneck layers has, and how the tables of a layer are
computed from the parameters. `DVC` has two layers (`deep_video_compression.py:128-132`, `155-159`), the
autoencoders have two (`_hific_autoencoder.py:121-122`), `VCTPipeline` has one (`bottlenecks.py:341-347`). -/
structure Arch (P V : Type) where
  names : List ℕ
  build : ℕ → P → Layer V
  blank : V

variable {P V : Type}

/-- `torch.Tensor()`, the empty tensor that buffers are registered with: `bottlenecks.py:108-113`. -/
def Arch.empty (a : Arch P V) : Buf V := ⟨[0], a.blank⟩

/-- A newly built model with the parameters `p` (random ones, in practice). -/
def Arch.fresh (a : Arch P V) (p : P) : Model P V := ⟨p, a.names.map fun n => List.replicate n a.empty⟩

/-- `EntropyBottleneck.update` (compressai) and `bottlenecks.py:149-180`: nothing is done if `_offset` is not empty and
`force` is not given. -/
def updateLayer (force : Bool) (tables own : Layer V) : Layer V :=
  match own with
  | [] => tables
  | offset :: _ => if 0 < offset.numel ∧ force = false then own else tables

/-- `DVC.update` (`deep_video_compression.py:256-269`), `CompressionModel.update` (compressai) and
`projects/torch_vct/neural/entropy_model.py:693-709`: each layer is updated. -/
def Arch.update (a : Arch P V) (force : Bool) (m : Model P V) : Model P V :=
  { m with layers := m.layers.mapIdx fun i own => updateLayer force (a.build i m.params) own }

/-- A training step: new parameters, the buffers are left alone. -/
def train (p : P) (m : Model P V) : Model P V := { m with params := p }

/-- `nn.Module._load_from_state_dict` for one buffer (torch): a buffer of another size is reported and left alone, one
of the same size is copied. The flag says whether an error is reported. -/
def loadBuf (own saved : Buf V) : Buf V × Bool :=
  if own.size = saved.size then (saved, false) else (own, true)

/-- `update_registered_buffers` with the policy `resize_if_empty` (`compressai/models/utils.py`): an empty buffer gets
the size of the saved one before anything is loaded. -/
def resizeIfEmpty (own saved : Buf V) : Buf V :=
  if own.numel = 0 then { own with size := saved.size } else own

/-- How a model loads: `plain` is `nn.Module.load_state_dict`, used by `DVC` (`deep_video_compression.py:68`), by
`VCTPipeline` (`projects/torch_vct/model_pipeline.py:155`) and by every model that is a part of a training module;
`resizing` is `CompressionModel.load_state_dict`, which the autoencoders inherit
(`_hyperprior_autoencoder.py:18`). -/
inductive Loader where
  | plain
  | resizing
  deriving DecidableEq

/-- One buffer is loaded. -/
def Loader.buf (l : Loader) (own saved : Buf V) : Buf V × Bool :=
  match l with
  | .plain => loadBuf own saved
  | .resizing => loadBuf (resizeIfEmpty own saved) saved

/-- The buffers of a layer are loaded, each on its own. -/
def Loader.layer (l : Loader) (own saved : Layer V) : Layer V × Bool :=
  (List.zipWith (fun o s => (l.buf o s).1) own saved, (List.zipWith (fun o s => (l.buf o s).2) own saved).any id)

/-- The model after `load_state_dict(file)` and whether the call raises. `torch` loads everything that fits and raises
after that, so the model is changed in both cases. -/
def Loader.load (l : Loader) (m file : Model P V) : Model P V × Bool :=
  (⟨file.params, List.zipWith (fun o s => (l.layer o s).1) m.layers file.layers⟩,
    (List.zipWith (fun o s => (l.layer o s).2) m.layers file.layers).any id)

/-- `load_model_checkpoint_from_config` (`projects/torch_vct/utils/checkpoint_loaders.py:53-60`): a new model loads the
file and computes its tables, unless loading raises. `force` is false: `entropy_model.py:693`. -/
def Arch.loadCheckpoint (a : Arch P V) (p : P) (file : Model P V) : Option (Model P V) :=
  match Loader.plain.load (a.fresh p) file with
  | (m, false) => some (a.update false m)
  | (_, true) => none

/-- What can happen to a model before it is saved. -/
inductive Step (P : Type) where
  | train (p : P)
  | update (force : Bool)

/-- One step. -/
def Arch.step (a : Arch P V) (m : Model P V) : Step P → Model P V
  | .train p => Restore.train p m
  | .update f => a.update f m

/-- A model after a history of steps. -/
def Arch.run (a : Arch P V) (p : P) (h : List (Step P)) : Model P V := h.foldl a.step (a.fresh p)

end Verif.Models.Restore
