import Mathlib.Data.List.Basic
import Mathlib.Logic.Function.Basic

/-!
Model of the pretrained models: `/repo/neuralcompression/zoo/*.py` and `/repo/hubconf.py`.

The server, the cache of `torch.hub` and the connection are part of the model.  `torch.hub.load_state_dict_from_url` (torch
2.0.1, not in the repository) is assumed to do this when it is called without `check_hash`: if the cache directory has a file
with the last component of the URL as its name, this file is read; otherwise the URL is written to a temporary file, which is
then moved to that name.  A transfer that raises, or a process that dies during it, leaves the directory without the file; a
connection that the server closes early ends the transfer without an exception, so that a part of the file is moved.
Reading an incomplete file raises.

Simplifications.  Weights are an arbitrary type with a test whether they fit an architecture (`load_state_dict` is
strict).  Two processes that download the same file at the same time are not modelled.  The random weights of a new model
are not modelled.
-/

namespace Verif.Models.Zoo

/-- The three modules of the zoo. -/
inductive Family
  | msillm
  | noganms
  | vqvae
  deriving DecidableEq

/-- The architectures: `HiFiCAutoencoder()` (`zoo/_msillm.py:28`, `zoo/_noganms.py:26`) and the VQ-VAE of
`zoo/_msillm_vqvae.py:52-72`. -/
inductive Arch
  | hific
  | vqvae
  deriving DecidableEq

/-- The architecture that a family builds: `zoo/_msillm.py:28`, `zoo/_noganms.py:26`, `zoo/_msillm_vqvae.py:52`. -/
def Family.arch : Family → Arch
  | .msillm => .hific
  | .noganms => .hific
  | .vqvae => .vqvae

/-- `VALID_WEIGHTS`: `zoo/_msillm.py:15-24`, `zoo/_noganms.py:15-22`, `zoo/_msillm_vqvae.py:16-18`. -/
def Family.valid : Family → List String
  | .msillm => ["target_0.00218bpp", "target_0.00438bpp", "target_0.035bpp", "target_0.07bpp", "target_0.14bpp",
      "target_0.3bpp", "target_0.45bpp", "target_0.9bpp"]
  | .noganms => ["target_0.035bpp", "target_0.07bpp", "target_0.14bpp", "target_0.3bpp", "target_0.45bpp",
      "target_0.9bpp"]
  | .vqvae => ["vqvae_xcit_p8_ch64_cb1024_h8"]

/-- The part of the file name before the weights: `zoo/_msillm.py:37`, `zoo/_noganms.py:35`, `zoo/_msillm_vqvae.py:30`. -/
def Family.stem : Family → String
  | .msillm => "msillm_"
  | .noganms => "noganms_"
  | .vqvae => ""

/-- `url`: `zoo/_msillm.py:35-38`, `zoo/_noganms.py:33-36`, `zoo/_msillm_vqvae.py:28-31`. -/
def url (f : Family) (weights : String) : List Char :=
  "https://dl.fbaipublicfiles.com/NeuralCompression/2023-muckley-msillm/".toList ++ f.stem.toList ++ weights.toList ++
    ".ckpt".toList

/-- The functions of the zoo, with the weights they choose if `pretrained is True`: `zoo/_msillm.py:53-122`,
`zoo/_noganms.py:51-102`, `zoo/_msillm_vqvae.py:46-50`. -/
def zoo : List (String × Family × String) := [
  ("msillm_quality_vlo1", .msillm, "target_0.00218bpp"),
  ("msillm_quality_vlo2", .msillm, "target_0.00438bpp"),
  ("msillm_quality_1", .msillm, "target_0.035bpp"),
  ("msillm_quality_2", .msillm, "target_0.07bpp"),
  ("msillm_quality_3", .msillm, "target_0.14bpp"),
  ("msillm_quality_4", .msillm, "target_0.3bpp"),
  ("msillm_quality_5", .msillm, "target_0.45bpp"),
  ("msillm_quality_6", .msillm, "target_0.9bpp"),
  ("noganms_quality_1", .noganms, "target_0.035bpp"),
  ("noganms_quality_2", .noganms, "target_0.07bpp"),
  ("noganms_quality_3", .noganms, "target_0.14bpp"),
  ("noganms_quality_4", .noganms, "target_0.3bpp"),
  ("noganms_quality_5", .noganms, "target_0.45bpp"),
  ("noganms_quality_6", .noganms, "target_0.9bpp"),
  ("vqvae_xcit_p8_ch64_cb1024_h8", .vqvae, "vqvae_xcit_p8_ch64_cb1024_h8")]

/-- The functions of the hub, with the functions of the zoo they call: `hubconf.py:7-23`, `hubconf.py:28-355`. -/
def hub : List (String × String) := [
  ("msillm_quality_vlo1", "msillm_quality_vlo1"),
  ("msillm_quality_vlo2", "msillm_quality_vlo2"),
  ("msillm_quality_1", "msillm_quality_1"),
  ("msillm_quality_2", "msillm_quality_2"),
  ("msillm_quality_3", "msillm_quality_3"),
  ("msillm_quality_4", "msillm_quality_4"),
  ("msillm_quality_5", "msillm_quality_5"),
  ("msillm_quality_6", "msillm_quality_6"),
  ("noganms_quality_1", "noganms_quality_1"),
  ("noganms_quality_2", "noganms_quality_2"),
  ("noganms_quality_3", "noganms_quality_3"),
  ("noganms_quality_4", "noganms_quality_4"),
  ("noganms_quality_5", "noganms_quality_5"),
  ("noganms_quality_6", "noganms_quality_6"),
  ("msillm_vqvae_xcit_p8_ch64_cb1024_h8", "vqvae_xcit_p8_ch64_cb1024_h8")]

/-- A Python value that can be given for `pretrained` (or for another argument). -/
inductive Py
  | none
  | bool (b : Bool)
  | int (n : Int)
  | str (s : String)
  deriving DecidableEq

/-- A file of the cache. -/
inductive File (W : Type)
  | complete (w : W)
  | torn

/-- The server by URL, and the cache directory by file name. -/
structure World (W : Type) where
  server : List Char → Option W
  cache : List Char → Option (File W)

/-- What happens to a transfer: there is no connection, it is complete, it is interrupted (by an exception or by the death
of the process), or it is closed early. -/
inductive Net
  | down
  | complete
  | interrupted
  | short
  deriving DecidableEq

/-- The ways to fail: no such function, no such weights, no connection or no such file, an interrupted transfer, an
unreadable file, weights that do not fit. -/
inductive Err
  | attribute
  | value
  | connection
  | interrupted
  | unreadable
  | mismatch
  deriving DecidableEq

/-- The last component of a URL. -/
def baseName (u : List Char) : List Char := (u.reverse.takeWhile (· ≠ '/')).reverse

variable {W : Type}

/-- Storing a file in the cache. -/
def World.put (w : World W) (name : List Char) (f : File W) : World W :=
  { w with cache := Function.update w.cache name (some f) }

/-- `torch.hub.load_state_dict_from_url(url)`, called in `zoo/_msillm.py:46-48`. -/
def fetch (w : World W) (net : Net) (u : List Char) : World W × Except Err W :=
  match w.cache (baseName u) with
  | some (.complete x) => (w, .ok x)
  | some .torn => (w, .error .unreadable)
  | none =>
    match net, w.server u with
    | .down, _ => (w, .error .connection)
    | _, none => (w, .error .connection)
    | .interrupted, some _ => (w, .error .interrupted)
    | .short, some _ => (w.put (baseName u) .torn, .error .unreadable)
    | .complete, some x => (w.put (baseName u) (.complete x), .ok x)

/-- A model: its architecture and the weights loaded into it, if any were. -/
structure Model (W : Type) where
  arch : Arch
  weights : Option W

/-- `_build_msillm`, `_build_noganms`, `_build_msillm_vqvae`: `zoo/_msillm.py:27-50`, `zoo/_noganms.py:25-48`,
`zoo/_msillm_vqvae.py:21-43`. -/
def build (fits : Arch → W → Bool) (w : World W) (net : Net) (f : Family) (weights : Option String) :
    World W × Except Err (Model W) :=
  match weights with
  | none => (w, .ok ⟨f.arch, none⟩)
  | some s =>
    if s ∉ f.valid then (w, .error .value)
    else
      match fetch w net (url f s) with
      | (w', .error e) => (w', .error e)
      | (w', .ok x) => (w', if fits f.arch x then .ok ⟨f.arch, some x⟩ else .error .mismatch)

/-- A call of a function of the zoo: `zoo/_msillm.py:53-59` and the functions after it.  `pretrained` is an identity test and is
`False` if it is not given; the other arguments are not used. -/
def callZoo (fits : Arch → W → Bool) (w : World W) (net : Net) (name : String) (pretrained : Option Py)
    (_kwargs : List (String × Py)) : World W × Except Err (Model W) :=
  match zoo.lookup name with
  | none => (w, .error .attribute)
  | some (f, s) =>
    let weights := if pretrained.getD (.bool false) = .bool true then some s else none
    build fits w net f weights

/-- A call of a function of the hub: `hubconf.py:28-47` and the functions after it. -/
def callHub (fits : Arch → W → Bool) (w : World W) (net : Net) (name : String) (pretrained : Option Py)
    (kwargs : List (String × Py)) : World W × Except Err (Model W) :=
  match hub.lookup name with
  | none => (w, .error .attribute)
  | some z => callZoo fits w net z (some (pretrained.getD (.bool true))) kwargs

/-- The two ways to call. -/
inductive Via
  | zoo
  | hub
  deriving DecidableEq

/-- What can happen: a call, the publication of a file, the removal of a file from the cache. -/
inductive Event (W : Type)
  | call (via : Via) (name : String) (pretrained : Option Py) (kwargs : List (String × Py)) (net : Net)
  | publish (u : List Char) (x : W)
  | remove (name : List Char)

/-- A call of either kind. -/
def call (fits : Arch → W → Bool) (w : World W) (via : Via) (name : String) (pretrained : Option Py)
    (kwargs : List (String × Py)) (net : Net) : World W × Except Err (Model W) :=
  match via with
  | .zoo => callZoo fits w net name pretrained kwargs
  | .hub => callHub fits w net name pretrained kwargs

/-- The world after an event. -/
def step (fits : Arch → W → Bool) (w : World W) : Event W → World W
  | .call via name pretrained kwargs net => (call fits w via name pretrained kwargs net).1
  | .publish u x => { w with server := Function.update w.server u (some x) }
  | .remove name => { w with cache := Function.update w.cache name none }

/-- The world after a history. -/
def after (fits : Arch → W → Bool) (w : World W) (h : List (Event W)) : World W := h.foldl (step fits) w

end Verif.Models.Zoo
