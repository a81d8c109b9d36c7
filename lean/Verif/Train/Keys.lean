import Mathlib.Data.List.Basic

/-!
Model of loading the weights of a model from the checkpoint of a training module: `pretrained_state_dict`
(`/repo/projects/illm/train.py:117-125`) and `load_model_checkpoint_from_config`
(`/repo/projects/torch_vct/utils/checkpoint_loaders.py:16-61`).

A state dict is a list of keys and values in order.  `nn.Module.state_dict` and `load_state_dict` are modelled as far as
used: the keys of a submodule are its attribute name, a dot, and its own keys; strict loading raises unless the keys are
the same.  The configuration of the model, devices and shapes are left out.
-/

namespace Verif.Train.Keys

abbrev Key := List Char

/-- `KeyError`, and the `RuntimeError` of `load_state_dict`. -/
inductive Err | key | runtime
deriving DecidableEq, Repr

variable {V : Type}

/-- A module: its own parameters and buffers, and the state dicts of its submodules, by attribute name. -/
structure Module (V : Type) where
  own : List (Key × V)
  children : List (Key × List (Key × V))

/-- `nn.Module.state_dict`. -/
def Module.stateDict (m : Module V) : List (Key × V) :=
  m.own ++ m.children.flatMap fun c => c.2.map fun kv => (c.1 ++ '.' :: kv.1, kv.2)

/-- `{k[len(prefix):]: v for k, v in state_dict.items() if k[: len(prefix)] == prefix}`: `train.py:121-123`,
`checkpoint_loaders.py:47-51`. -/
def strip (pre : Key) (sd : List (Key × V)) : List (Key × V) :=
  (sd.filter fun kv => kv.1.take pre.length = pre).map fun kv => (kv.1.drop pre.length, kv.2)

/-- The prefix of both functions. -/
def modelPrefix : Key := "model.".toList

/-- What `torch.load` returns: a checkpoint of the trainer, with the state dict under `"state_dict"`, or a state dict. -/
inductive File (V : Type)
  | checkpoint (sd : List (Key × V))
  | plain (sd : List (Key × V))

/-- `torch.load(...)["state_dict"]`; an entry of a state dict that happens to have this name is a tensor, not a dict. -/
def File.stateDict? : File V → Except Err (List (Key × V))
  | .checkpoint sd => .ok sd
  | .plain _ => .error .key

/-- `load_state_dict` with `strict=True`; the model has the keys `keys`. -/
def loadStrict (keys : List Key) (sd : List (Key × V)) : Except Err (List (Key × V)) :=
  if (∀ k ∈ keys, k ∈ sd.map Prod.fst) ∧ ∀ k ∈ sd.map Prod.fst, k ∈ keys then .ok sd else .error .runtime

/-- `pretrained_state_dict` and `model.load_state_dict`: `train.py:117-125, 136-138, 367`. -/
def loadIllm (keys : List Key) (f : File V) : Except Err (List (Key × V)) := do
  let sd ← f.stateDict?
  loadStrict keys (strip modelPrefix sd)

/-- The state dict with the fallback: `checkpoint_loaders.py:35-42`. -/
def fileDict (f : File V) : List (Key × V) :=
  match f, f.stateDict? with
  | _, .ok sd => sd
  | .plain sd, .error _ => sd
  | .checkpoint sd, .error _ => sd

/-- `load_model_checkpoint_from_config`: `checkpoint_loaders.py:35-52`. -/
def loadVct (keys : List Key) (f : File V) : Except Err (List (Key × V)) := loadStrict keys (strip modelPrefix (fileDict f))

/-- The copy of the checkpoint: `checkpoint_loaders.py:43-46`. -/
def savedCopy (f : File V) : File V := .plain (fileDict f)

end Verif.Train.Keys
